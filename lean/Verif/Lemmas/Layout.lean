import Verif.Lemmas.Shape
import Verif.Model.NdArray

set_option autoImplicit false

/-! Layout equivalence: two (shape, strides) pairs address the same offsets in the same row-major order. -/

namespace Spu
open Model Spec

theorem size_append (a b : List Nat) : size (a ++ b) = size a * size b := by
  induction a with
  | nil => simp [size]
  | cons d ds ih => simp [size, ih, Nat.mul_assoc]

theorem InB_append {i j a b : List Nat} (h1 : InB i a) (h2 : InB j b) : InB (i ++ j) (a ++ b) := by
  induction h1 with
  | nil => simpa
  | cons h _ ih => exact .cons h ih

theorem InB_split {i a b : List Nat} (h : InB i (a ++ b)) :
    ∃ i1 i2, i = i1 ++ i2 ∧ InB i1 a ∧ InB i2 b := by
  induction a generalizing i with
  | nil => exact ⟨[], i, rfl, .nil, h⟩
  | cons d ds ih =>
    cases h with
    | cons hi h =>
      obtain ⟨i1, i2, rfl, h1, h2⟩ := ih h
      exact ⟨_ :: i1, i2, rfl, .cons hi h1, h2⟩

theorem pos_append {i j a b : List Nat} (h1 : i.length = a.length) :
    pos (i ++ j) (a ++ b) = pos i a * size b + pos j b := by
  induction a generalizing i with
  | nil => cases i <;> simp_all [pos]
  | cons d ds ih =>
    cases i with
    | nil => simp at h1
    | cons x xs =>
      have : xs.length = ds.length := by simpa using h1
      simp only [List.cons_append, pos, ih this, size_append]
      ring

theorem strideDot_append {i j : Index} {a b : Strides} (h : i.length = a.length) :
    strideDot (i ++ j) (a ++ b) = strideDot i a + strideDot j b := by
  induction a generalizing i with
  | nil => cases i <;> simp_all [strideDot]
  | cons s ss ih =>
    cases i with
    | nil => simp at h
    | cons x xs =>
      have : xs.length = ss.length := by simpa using h
      simp only [List.cons_append, strideDot_cons, ih this]
      ring

/-- Same sequence of offsets in row-major order. -/
structure SameLayout (d : Shape) (s : Strides) (d' : Shape) (s' : Strides) : Prop where
  len : s.length = d.length
  len' : s'.length = d'.length
  sz : size d = size d'
  eq : ∀ i i', InB i d → InB i' d' → pos i d = pos i' d' → strideDot i s = strideDot i' s'

theorem exists_InB {sh : Shape} {p : Nat} (hp : p < size sh) : ∃ idx, InB idx sh ∧ pos idx sh = p := by
  obtain ⟨idx, _, h2, h3⟩ := unflattenIndex_spec hp
  exact ⟨idx, h2, h3⟩

theorem SameLayout.symm {d s d' s'} (h : SameLayout d s d' s') : SameLayout d' s' d s :=
  ⟨h.len', h.len, h.sz.symm, fun i i' hi hi' e => (h.eq i' i hi' hi e.symm).symm⟩

theorem SameLayout.trans {d s d' s' d'' s''} (h : SameLayout d s d' s') (g : SameLayout d' s' d'' s'') :
    SameLayout d s d'' s'' := by
  refine ⟨h.len, g.len', h.sz.trans g.sz, fun i i' hi hi' e => ?_⟩
  obtain ⟨j, hj, ej⟩ := exists_InB (sh := d') (p := pos i d) (by rw [← h.sz]; exact pos_lt_size hi)
  rw [h.eq i j hi hj ej.symm, g.eq j i' hj hi' (by rw [ej, e])]

theorem SameLayout.refl {d s} (h : s.length = d.length) : SameLayout d s d s :=
  ⟨h, h, rfl, fun _ _ hi hi' e => by rw [pos_inj hi hi' e]⟩

theorem divmod_unique {a b a' b' n : Nat} (hb : b < n) (hb' : b' < n) (h : a * n + b = a' * n + b') :
    a = a' ∧ b = b' := by
  have h1 : (a * n + b) / n = a := by
    rw [Nat.mul_comm, Nat.mul_add_div (by omega), Nat.div_eq_of_lt hb]; simp
  have h2 : (a' * n + b') / n = a' := by
    rw [Nat.mul_comm, Nat.mul_add_div (by omega), Nat.div_eq_of_lt hb']; simp
  have : a = a' := by rw [← h1, ← h2, h]
  subst this
  exact ⟨rfl, by omega⟩

theorem SameLayout.append {a s a' s' b t b' t'} (h : SameLayout a s a' s') (g : SameLayout b t b' t') :
    SameLayout (a ++ b) (s ++ t) (a' ++ b') (s' ++ t') := by
  refine ⟨by simp [h.len, g.len], by simp [h.len', g.len'], by simp [size_append, h.sz, g.sz], ?_⟩
  intro i i' hi hi' e
  obtain ⟨i1, i2, rfl, hi1, hi2⟩ := InB_split hi
  obtain ⟨j1, j2, rfl, hj1, hj2⟩ := InB_split hi'
  rw [pos_append (InB.length hi1), pos_append (InB.length hj1), ← g.sz] at e
  have hb' : pos j2 b' < size b := by rw [g.sz]; exact pos_lt_size hj2
  obtain ⟨e1, e2⟩ := divmod_unique (pos_lt_size hi2) hb' e
  rw [strideDot_append (by rw [InB.length hi1, h.len]), strideDot_append (by rw [InB.length hj1, h.len']),
    h.eq i1 j1 hi1 hj1 e1, g.eq i2 j2 hi2 hj2 e2]

theorem pos_one (i : Index) : InB i [1] → i = [0] := by
  intro h
  cases h with
  | @cons i _ _ _ h h' =>
    cases h'
    have : i = 0 := by omega
    subst this; rfl

/-- Size-1 axes do not contribute, whatever their stride. -/
theorem SameLayout.one (s : Int) : SameLayout [1] [s] [] [] := by
  refine ⟨rfl, rfl, rfl, fun i i' hi hi' _ => ?_⟩
  cases hi'
  rw [pos_one i hi]
  simp [strideDot]

theorem SameLayout.stripOnes {d : Shape} {s : Strides} (h : s.length = d.length) :
    SameLayout d s ((Model.stripOnes d s).map Prod.fst) ((Model.stripOnes d s).map Prod.snd) := by
  induction d generalizing s with
  | nil => cases s with
    | nil => exact .refl rfl
    | cons => simp at h
  | cons d ds ih =>
    cases s with
    | nil => simp at h
    | cons s ss =>
      have hl : ss.length = ds.length := by simpa using h
      simp only [Model.stripOnes]
      split
      · rename_i h1
        subst h1
        have := (SameLayout.one s).append (ih hl)
        simpa using this
      · have := (SameLayout.refl (d := [d]) (s := [s]) rfl).append (ih hl)
        simpa using this

theorem SameLayout.zeroOnes {d : Shape} {s : Strides} (h : s.length = d.length) :
    SameLayout d s d (List.zipWith (fun d s => if d = 1 then 0 else s) d s) := by
  induction d generalizing s with
  | nil => cases s with
    | nil => exact .refl rfl
    | cons => simp at h
  | cons d ds ih =>
    cases s with
    | nil => simp at h
    | cons s ss =>
      have hl : ss.length = ds.length := by simpa using h
      simp only [List.zipWith_cons_cons]
      have h1 : SameLayout [d] [s] [d] [if d = 1 then 0 else s] := by
        split
        · rename_i h1
          subst h1
          exact (SameLayout.one s).trans (SameLayout.one 0).symm
        · exact .refl rfl
      simpa using h1.append (ih hl)

theorem compactStridesLoop_length (d : Shape) : (compactStridesLoop d).length = d.length := by
  induction d with
  | nil => rfl
  | cons d ds ih => simp [compactStridesLoop_cons, ih]

/-- A layout in which the offset is `lin * position`. -/
def Linear (d : Shape) (s : Strides) (lin : Int) : Prop :=
  s.length = d.length ∧ ∀ i, InB i d → strideDot i s = lin * pos i d

theorem Linear.same {d s d' s' lin} (h : Linear d s lin) (h' : Linear d' s' lin) (hs : size d = size d') :
    SameLayout d s d' s' :=
  ⟨h.1, h'.1, hs, fun i i' hi hi' e => by rw [h.2 i hi, h'.2 i' hi', e]⟩

theorem Linear.of_same {d s d' s' lin} (h : SameLayout d s d' s') (h' : Linear d' s' lin) : Linear d s lin := by
  refine ⟨h.len, fun i hi => ?_⟩
  obtain ⟨j, hj, ej⟩ := exists_InB (sh := d') (p := pos i d) (by rw [← h.sz]; exact pos_lt_size hi)
  rw [h.eq i j hi hj ej.symm, h'.2 j hj, ej]

theorem Linear.nil (lin : Int) : Linear [] [] lin :=
  ⟨rfl, fun i hi => by cases hi; simp [strideDot, pos]⟩

theorem Linear.cons {d : Nat} {ds : Shape} {ss : Strides} {lin : Int} (h : Linear ds ss lin) :
    Linear (d :: ds) ((lin * size ds) :: ss) lin := by
  refine ⟨by simp [h.1], fun i hi => ?_⟩
  cases hi with
  | cons hi his =>
    rw [strideDot_cons, h.2 _ his]
    simp only [pos]
    push_cast
    ring

/-- Group strides are linear. -/
theorem groupStrides_cons (lin : Int) (d : Nat) (ds : List Nat) :
    groupStrides lin (d :: ds) = (lin * size ds) :: groupStrides lin ds := by
  induction ds generalizing d with
  | nil => simp [groupStrides, size]
  | cons e es ih =>
    rw [groupStrides, ih e]
    simp only [size]
    push_cast
    congr 1
    ring

theorem groupStrides_linear (lin : Int) (d : List Nat) : Linear d (groupStrides lin d) lin := by
  induction d with
  | nil => exact .nil lin
  | cons d ds ih => rw [groupStrides_cons]; exact ih.cons

theorem contiguous_linear (g : List (Nat × Int)) (h : contiguous g = true) (lin : Int)
    (hl : ∀ x, g.getLast? = some x → x.2 = lin) :
    Linear (g.map Prod.fst) (g.map Prod.snd) lin ∧
      ∀ x, g.head? = some x → x.2 = lin * size ((g.map Prod.fst).tail) := by
  induction g with
  | nil => exact ⟨.nil lin, by simp⟩
  | cons a rest ih =>
    cases rest with
    | nil =>
      have : a.2 = lin := hl a rfl
      refine ⟨?_, by simp [size, this]⟩
      have := (Linear.nil lin).cons (d := a.1)
      simp only [size] at this
      simp_all
    | cons b rest =>
      simp only [contiguous, Bool.and_eq_true, beq_iff_eq] at h
      have hl' : ∀ x, (b :: rest).getLast? = some x → x.2 = lin := by
        intro x hx; apply hl; simpa [List.getLast?_cons_cons] using hx
      obtain ⟨h1, h2⟩ := ih h.2 hl'
      have hb := h2 b rfl
      have ha : a.2 = lin * size ((b :: rest).map Prod.fst) := by
        rw [h.1, hb]; simp only [List.map_cons, List.tail_cons, size]; push_cast; ring
      refine ⟨?_, by simpa using ha⟩
      have := h1.cons (d := a.1)
      simp only [List.map_cons] at this ha ⊢
      rw [ha]; exact this

theorem groupAxes_spec {np op gN gO N O r} (h : groupAxes np op gN gO N O = some r)
    (hN : size gN.reverse = np) (hO : size (gO.reverse.map Prod.fst) = op) (hne : gO ≠ []) :
    r.1.reverse ++ r.2.2.1 = gN.reverse ++ N ∧ r.2.1.reverse ++ r.2.2.2 = gO.reverse ++ O ∧
    size r.1.reverse = size (r.2.1.reverse.map Prod.fst) ∧ r.2.1 ≠ [] := by
  fun_induction groupAxes np op gN gO N O with
  | case1 => simp at h; subst h; simp_all
  | case2 => simp at h
  | case3 np op gN gO O h1 h2 n N ih =>
    have := ih h (by simp [size_append, hN, size]) hO hne
    simpa using this
  | case4 => simp at h
  | case5 np op gN gO N h1 h2 o O ih =>
    have := ih h hN (by simp [size_append, size]; simpa using congrArg (· * o.1) hO) (by simp)
    simpa using this

/-- The group search cannot run off either list when total products agree and extents are positive. -/
theorem groupAxes_total {np op gN gO N O} (hnp : 0 < np) (hop : 0 < op)
    (hN : ∀ x ∈ N, 0 < x) (hO : ∀ x ∈ O, 0 < x.1) (hs : np * size N = op * size (O.map Prod.fst)) :
    groupAxes np op gN gO N O ≠ none := by
  have pos_size : ∀ l : List Nat, (∀ x ∈ l, 0 < x) → 0 < size l := by
    intro l
    induction l with
    | nil => simp [size]
    | cons a l ih => intro h; exact Nat.mul_pos (h a (by simp)) (ih (fun x hx => h x (by simp [hx])))
  fun_induction groupAxes np op gN gO N O with
  | case1 => simp
  | case2 np op gN gO O h1 h2 =>
    exfalso
    have h3 : 0 < size (O.map Prod.fst) := pos_size _ (by simpa using fun a b h => hO (a, b) h)
    simp only [size, Nat.mul_one] at hs
    have : op * 1 ≤ op * size (O.map Prod.fst) := Nat.mul_le_mul_left _ h3
    omega
  | case3 np op gN gO O h1 h2 n N ih =>
    refine ih (Nat.mul_pos hnp (hN n (by simp))) hop (fun x hx => hN x (by simp [hx])) hO ?_
    rw [← hs]; simp [size, Nat.mul_assoc]
  | case4 np op gN gO N h1 h2 =>
    exfalso
    have h3 : 0 < size N := pos_size _ hN
    simp only [List.map_nil, size, Nat.mul_one] at hs
    have : np * 1 ≤ np * size N := Nat.mul_le_mul_left _ h3
    omega
  | case5 np op gN gO N h1 h2 o O ih =>
    refine ih hnp (Nat.mul_pos hop (hO o (by simp))) hN (fun x hx => hO x (by simp [hx])) ?_
    rw [hs]; simp [size, Nat.mul_assoc]

theorem size_one_replicate {N : List Nat} (hN : ∀ x ∈ N, 0 < x) (h : size N = 1) :
    SameLayout N (List.replicate N.length 0) [] [] := by
  induction N with
  | nil => exact .refl rfl
  | cons n N ih =>
    simp only [size] at h
    have h1 : n = 1 := Nat.eq_one_of_mul_eq_one_right h
    have h2 : size N = 1 := Nat.eq_one_of_mul_eq_one_left h
    subst h1
    simpa [List.replicate_succ] using (SameLayout.one 0).append (ih (fun x hx => hN x (by simp [hx])) h2)

theorem pos_size {l : List Nat} (h : ∀ x ∈ l, 0 < x) : 0 < size l := by
  induction l with
  | nil => simp [size]
  | cons a l ih => exact Nat.mul_pos (h a (by simp)) (ih (fun x hx => h x (by simp [hx])))

theorem mem_pos_of_size {l : List Nat} (h : 0 < size l) : ∀ x ∈ l, 0 < x := by
  induction l with
  | nil => simp
  | cons a l ih =>
    simp only [size] at h
    intro x hx
    rcases List.mem_cons.1 hx with rfl | hx
    · exact Nat.pos_of_mul_pos_right h
    · exact ih (Nat.pos_of_mul_pos_left h) x hx

theorem nocopyLoop_spec {N : List Nat} {O : List (Nat × Int)} (hN : ∀ x ∈ N, 0 < x)
    (hO : ∀ x ∈ O, 1 < x.1) (hs : size N = size (O.map Prod.fst)) :
    nocopyLoop N O ≠ .ub ∧
    ∀ ss, nocopyLoop N O = .ok ss → SameLayout N ss (O.map Prod.fst) (O.map Prod.snd) := by
  fun_induction nocopyLoop N O with
  | case1 O =>
    refine ⟨by simp, fun ss h => ?_⟩
    simp only [Attempt.ok.injEq] at h
    subst h
    cases O with
    | nil => exact .refl rfl
    | cons o O =>
      exfalso
      have h1 := hO o (by simp)
      have h2 : 0 < size (O.map Prod.fst) := pos_size (by
        intro x hx; simp only [List.mem_map] at hx; obtain ⟨y, hy, rfl⟩ := hx
        have := hO y (by simp [hy]); omega)
      simp only [size, List.map_cons] at hs
      have : 2 * 1 ≤ o.1 * size (O.map Prod.fst) := Nat.mul_le_mul h1 h2
      omega
  | case2 N hne =>
    refine ⟨by simp, fun ss h => ?_⟩
    simp only [Attempt.ok.injEq] at h
    subst h
    exact size_one_replicate hN (by simpa [size] using hs)
  | case3 n N o O hg =>
    exfalso
    refine groupAxes_total (np := n) (op := o.1) (gN := [n]) (gO := [o]) (N := N) (O := O) (hN n (by simp)) ?_
      (fun x hx => hN x (by simp [hx])) (fun x hx => ?_) ?_ hg
    · have := hO o (by simp); omega
    · have := hO x (by simp [hx]); omega
    · simpa [size] using hs
  | case4 n N o O gN gO N' O' hg hc ss hr ih =>
    have hsp := groupAxes_spec hg (by simp [size]) (by simp [size]) (by simp)
    obtain ⟨e1, e2, e3, e4⟩ := hsp
    simp only [List.reverse_singleton, List.singleton_append] at e1 e2 e3 e4
    have hN' : ∀ x ∈ N', 0 < x := fun x hx => hN x (by rw [← e1]; simp [hx])
    have hO' : ∀ x ∈ O', 1 < x.1 := fun x hx => hO x (by rw [← e2]; simp [hx])
    have hgp : 0 < size gN.reverse := pos_size (fun x hx => hN x (by rw [← e1]; exact List.mem_append_left _ hx))
    have hs' : size N' = size (O'.map Prod.fst) := by
      rw [← e1, ← e2, List.map_append, size_append, size_append, ← e3] at hs
      exact Nat.eq_of_mul_eq_mul_left hgp hs
    have := ih hN' hO' hs'
    refine ⟨by simp, fun ss' h => ?_⟩
    simp only [Attempt.ok.injEq] at h
    subst h
    have hrec := this.2 ss hr
    rw [← e1, ← e2, List.map_append, List.map_append]
    refine SameLayout.append ?_ hrec
    obtain ⟨hlin, _⟩ := contiguous_linear gO.reverse hc (gO.head?.elim 0 (·.2)) (by
      intro x hx
      rw [List.getLast?_reverse] at hx
      simp [hx])
    exact (groupStrides_linear _ _).same hlin e3
  | case5 n N o O gN gO N' O' hg hc hr ih =>
    have hsp := groupAxes_spec hg (by simp [size]) (by simp [size]) (by simp)
    obtain ⟨e1, e2, e3, e4⟩ := hsp
    simp only [List.reverse_singleton, List.singleton_append] at e1 e2 e3 e4
    have hN' : ∀ x ∈ N', 0 < x := fun x hx => hN x (by rw [← e1]; simp [hx])
    have hO' : ∀ x ∈ O', 1 < x.1 := fun x hx => hO x (by rw [← e2]; simp [hx])
    have hgp : 0 < size gN.reverse := pos_size (fun x hx => hN x (by rw [← e1]; exact List.mem_append_left _ hx))
    have hs' : size N' = size (O'.map Prod.fst) := by
      rw [← e1, ← e2, List.map_append, size_append, size_append, ← e3] at hs
      exact Nat.eq_of_mul_eq_mul_left hgp hs
    have := ih hN' hO' hs'
    cases hq : nocopyLoop N' O' with
    | ok s => exact absurd hq (hr s)
    | ub => exact absurd hq this.1
    | notContiguous => simp
  | case6 => simp

theorem stripOnes_gt_one {d : Shape} {s : Strides} (hd : ∀ x ∈ d, 0 < x) :
    ∀ x ∈ Model.stripOnes d s, 1 < x.1 := by
  induction d generalizing s with
  | nil => simp [Model.stripOnes]
  | cons d ds ih =>
    cases s with
    | nil => simp [Model.stripOnes]
    | cons s ss =>
      have := ih (s := ss) (fun x hx => hd x (by simp [hx]))
      simp only [Model.stripOnes]
      split
      · exact this
      · intro x hx
        rcases List.mem_cons.1 hx with rfl | hx
        · have := hd d (by simp); simp; omega
        · exact this x hx

theorem attempt_spec {v : View} (hv : v.WF) {tgt : Shape} (hs : size v.shape = size tgt) (hp : 0 < size tgt) :
    attemptNocopyReshape v tgt ≠ .ub ∧
    ∀ ss, attemptNocopyReshape v tgt = .ok ss → SameLayout tgt ss v.shape v.strides := by
  have hstr := SameLayout.stripOnes hv
  have := nocopyLoop_spec (N := tgt) (O := Model.stripOnes v.shape v.strides) (mem_pos_of_size hp)
    (stripOnes_gt_one (mem_pos_of_size (by omega))) (by rw [← hs, hstr.sz])
  unfold attemptNocopyReshape
  cases hq : nocopyLoop tgt (Model.stripOnes v.shape v.strides) with
  | ub => exact absurd hq this.1
  | notContiguous => simp
  | ok s =>
    refine ⟨by simp, fun ss h => ?_⟩
    simp only [Attempt.ok.injEq] at h
    subst h
    have h1 := this.2 s hq
    exact ((SameLayout.zeroOnes h1.len).symm).trans (h1.trans hstr.symm)

/-- Fast indexing is sound. -/
theorem fast_linear {d : Shape} {s : Strides} (hl : s.length = d.length) {lin : Int}
    (h : canUseFastIndexing d s = (true, lin)) : Linear d s lin := by
  unfold canUseFastIndexing at h
  refine Linear.of_same (SameLayout.stripOnes hl) ?_
  generalize Model.stripOnes d s = st at h
  dsimp only at h
  split at h
  · rename_i hq
    rw [List.getLast?_eq_none_iff] at hq
    subst hq
    exact .nil _
  · rename_i a l hq
    split at h
    · rename_i hall
      simp only [Prod.mk.injEq, true_and] at h
      subst h
      have : st.map Prod.snd = (makeCompactStrides (st.map Prod.fst)).map (fun c => l * c) := by
        clear hq
        have hlen : (makeCompactStrides (st.map Prod.fst)).length = st.length := by
          simp [makeCompactStrides_length]
        generalize makeCompactStrides (st.map Prod.fst) = c at hall hlen
        induction st generalizing c with
        | nil => cases c <;> simp_all
        | cons x st ih =>
          cases c with
          | nil => simp at hlen
          | cons c cs =>
            simp only [List.zipWith_cons_cons, List.all_cons, id, Bool.and_eq_true, decide_eq_true_eq] at hall
            simp only [List.map_cons, hall.1]
            rw [ih cs hall.2 (by simpa using hlen)]
      refine ⟨by simp, fun i hi => ?_⟩
      rw [this, ← strideDot_compact hi]
      have : ∀ (i : Index) (t : Strides), strideDot i (t.map (fun c => l * c)) = l * strideDot i t := by
        intro i
        induction i with
        | nil => intro t; simp [strideDot]
        | cons x xs ih =>
          intro t
          cases t with
          | nil => simp [strideDot]
          | cons t ts => simp only [List.map_cons, strideDot_cons, ih]; ring
      exact this i _
    · simp at h

theorem addr_eq {v : View} (hv : v.WF) (i : Index) : v.addr i = v.offset + strideDot i v.strides := by
  unfold View.addr calcFlattenOffset
  split
  · rename_i h
    exfalso
    rw [View.WF, h.2] at hv
    simp at hv
    omega
  · rfl

end Spu

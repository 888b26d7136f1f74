import Verif.Props.NdArray

set_option autoImplicit false

/-! # C05 (rejection) and C06 over histories of view operations -/

namespace Spu.Props
open Model Spec

/-- C05 (rejection): an axis list of the wrong length or with a repeated axis is rejected. -/
theorem c05_transpose_rejects {v : View} {perm : List Nat} (h : perm.length ≠ v.shape.length ∨ ¬ perm.Nodup) :
    v.transpose perm = none := by
  unfold View.transpose
  rcases h with h | h
  · rw [if_pos h]
  · split
    · rfl
    · rfl

example : (⟨[2, 3], [3, 1], 0⟩ : View).transpose [1, 1] = none := by decide

theorem onesZero_zip {sh : Shape} {st : Strides} {o : Int} (hl : st.length = sh.length) :
    OnesZero ⟨sh, st, o⟩ ↔ ∀ p ∈ sh.zip st, p.1 = 1 → p.2 = 0 := by
  unfold OnesZero
  constructor
  · rintro h ⟨d, s⟩ hp h1
    obtain ⟨a, ha⟩ := List.getElem?_of_mem hp
    rw [List.getElem?_zip_eq_some] at ha
    have hlt : a < sh.length := (List.getElem?_eq_some_iff.1 ha.1).1
    have := h a hlt (by simp only [List.getD_eq_getElem?_getD, ha.1, Option.getD_some]; exact h1)
    simpa only [List.getD_eq_getElem?_getD, ha.2, Option.getD_some] using this
  · intro h a ha h1
    simp only at ha h1 ⊢
    have ha' : a < st.length := by omega
    have := h (sh[a], st[a]) (by
      rw [List.mem_iff_getElem?]
      exact ⟨a, by rw [List.getElem?_zip_eq_some]; simp [ha, ha']⟩)
    simp only [List.getD_eq_getElem?_getD, ha, ha', List.getElem?_eq_getElem, Option.getD_some] at h1 ⊢
    exact this h1

theorem onesZero_compact (sh : Shape) (o : Int) : OnesZero ⟨sh, makeCompactStrides sh, o⟩ := by
  rw [onesZero_zip (makeCompactStrides_length sh)]
  induction sh with
  | nil => simp
  | cons d ds ih =>
    rw [makeCompactStrides_cons]
    simp only [List.zip_cons_cons, List.mem_cons]
    rintro p (rfl | hp) h1
    · simp only at h1 ⊢; rw [if_pos h1]
    · exact ih p hp h1

theorem sliceAxes_ones {sh : Shape} {st : Strides} {b e : Index} {steps : Option (List Nat)} {r : List (Nat × Int)}
    (h : sliceAxes sh st b e steps = some r) (hk : ∀ k ∈ effSteps steps sh.length, k = 1) :
    ∀ p ∈ r, p.1 = 1 → p.2 = 0 := by
  have hax : ∀ {d s b e step} {a : Nat × Int}, sliceAxis d s b e step = some a → step.getD 1 = 1 → a.1 = 1 → a.2 = 0 := by
    intro d s b e step a ha hs h1
    unfold sliceAxis at ha
    split at ha
    · cases ha
    · dsimp only at ha
      split at ha
      · cases ha; rfl
      · rename_i hn
        cases step with
        | none => cases ha; exact absurd h1 hn
        | some k =>
          simp only [Option.getD_some] at hs
          subst hs
          simp only [Nat.one_ne_zero, if_false, Nat.div_one, Nat.mod_one, ne_eq, not_true_eq_false, Nat.add_zero,
            Option.some.injEq] at ha
          subst ha
          exact absurd h1 hn
  fun_induction sliceAxes sh st b e steps generalizing r with
  | case1 => simp only [Option.some.injEq] at h; subst h; simp
  | case2 => simp only [Option.some.injEq] at h; subst h; simp
  | case3 d ds s ss b bs e es ih =>
    simp only [Option.bind_eq_bind, Option.pure_def, Option.bind_eq_some_iff, Option.some.injEq] at h
    obtain ⟨a, ha, r', hr', rfl⟩ := h
    intro p hp
    rcases List.mem_cons.1 hp with rfl | hp
    · exact hax ha rfl
    · exact ih hr' (by simp [effSteps]) p hp
  | case4 d ds s ss b bs e es k ks ih =>
    simp only [Option.bind_eq_bind, Option.pure_def, Option.bind_eq_some_iff, Option.some.injEq] at h
    obtain ⟨a, ha, r', hr', rfl⟩ := h
    simp only [effSteps, Option.getD_some] at hk ih
    intro p hp
    rcases List.mem_cons.1 hp with rfl | hp
    · exact hax ha (hk k (by simp))
    · exact ih hr' (fun k hk' => hk k (by simp [hk'])) p hp
  | case5 => simp at h

/-- Views obtained from freshly allocated arrays by the view operations, where every slice has unit steps, reversed axes
are distinct and broadcasts are shape-compatible. -/
inductive History {α : Type} : Array α → View → Prop
  | fresh (b : Array α) (sh : Shape) : History b ⟨sh, makeCompactStrides sh, 0⟩
  | slice {b v w start stop steps} : History b v → (∀ k ∈ effSteps steps v.shape.length, k = 1) →
      v.slice start stop steps = some w → History b w
  | transpose {b v w perm} : History b v → v.transpose perm = some w → History b w
  | reverse {b v w dims} : History b v → dims.Nodup → v.reverse dims = some w → History b w
  | reshape {b v b' w tgt} : History b v → v.reshape b tgt = some (b', w) → History b' w
  | broadcast {b v w} {tgt : Shape} {inDims : List Nat} : History b v →
      (effDims inDims v.shape.length tgt.length).length = v.shape.length → v.shape.length ≤ tgt.length → inDims.Nodup →
      (∀ k, k < v.shape.length → v.shape.getD k 0 = 1 ∨
        tgt.getD ((effDims inDims v.shape.length tgt.length).getD k 0) 0 = v.shape.getD k 0) →
      v.broadcastTo tgt inDims = some w → History b w

theorem onesZero_transpose {v w : View} {perm : List Nat} (hv : v.WF) (h1 : OnesZero v) (h : v.transpose perm = some w) :
    w.WF ∧ OnesZero w := by
  unfold View.transpose at h
  split at h
  · cases h
  split at h
  · cases h
  simp only [Option.bind_eq_bind, Option.bind_eq_some_iff, Option.pure_def, Option.some.injEq] at h
  obtain ⟨sh, hsh, st, hst, rfl⟩ := h
  obtain ⟨hb, rfl⟩ := mapM_getElem _ _ 0 _ hsh
  obtain ⟨_, rfl⟩ := mapM_getElem _ _ 0 _ hst
  refine ⟨by simp [View.WF], ?_⟩
  rw [onesZero_zip (by simp)]
  intro p hp hp1
  rw [List.zip_map', List.mem_map] at hp
  obtain ⟨a, ha, rfl⟩ := hp
  exact h1 a (hb a ha) hp1

theorem onesZero_reverse {v w : View} {dims : List Nat} (hv : v.WF) (h1 : OnesZero v) (h : v.reverse dims = some w) :
    w.WF ∧ OnesZero w := by
  unfold View.reverse at h
  have key : ∀ (dims : List Nat) (acc : View), acc.WF → OnesZero acc →
      (dims.foldlM (init := acc) fun (acc : View) a => do
        let ns ← acc.strides[a]?
        let s ← v.strides[a]?
        let d ← v.shape[a]?
        return (⟨acc.shape, acc.strides.set a (ns * -1), acc.offset + s * ((d : Int) - 1)⟩ : View)) = some w →
      w.WF ∧ OnesZero w := by
    intro dims
    induction dims with
    | nil => intro acc ha ho h; simp at h; subst h; exact ⟨ha, ho⟩
    | cons a as ih =>
      intro acc ha ho h
      rw [List.foldlM_cons] at h
      simp only [Option.bind_eq_bind, Option.bind_eq_some_iff, Option.pure_def, Option.some.injEq] at h
      obtain ⟨acc', ⟨ns, hns, s, _, d, _, rfl⟩, h⟩ := h
      refine ih _ (by simpa [View.WF] using ha) ?_ h
      intro b hb hb1
      have := ho b hb hb1
      simp only [List.getD_eq_getElem?_getD, List.getElem?_set] at this ⊢
      split
      · subst_vars
        rw [hns] at this
        simp only [Option.getD_some] at this
        subst this
        split <;> simp
      · exact this
  exact key dims v hv h1 h

theorem onesZero_reshape {α : Type} {b b' : Array α} {v w : View} {tgt : Shape} (hv : v.WF) (h1 : OnesZero v)
    (h : v.reshape b tgt = some (b', w)) : w.WF ∧ OnesZero w := by
  unfold View.reshape at h
  split at h
  · cases h; exact ⟨hv, h1⟩
  split at h
  · cases h
  rename_i hs
  split at h
  · cases h; exact ⟨makeCompactStrides_length _, onesZero_compact _ _⟩
  rename_i h0
  rw [numel_eq_size] at h0
  simp only [numel_eq_size, ne_eq, not_not] at hs
  cases hq : attemptNocopyReshape v tgt with
  | ub => simp [hq] at h
  | ok ss =>
    simp only [hq, Option.some.injEq, Prod.mk.injEq] at h
    obtain ⟨rfl, rfl⟩ := h
    have hlen : ss.length = tgt.length := ((attempt_spec hv hs (by omega)).2 ss hq).len
    refine ⟨hlen, ?_⟩
    unfold attemptNocopyReshape at hq
    split at hq
    · rename_i s' _
      simp only [Attempt.ok.injEq] at hq
      subst hq
      intro a ha hone
      simp only at ha hone ⊢
      have hz : a < s'.length := by simp at hlen; omega
      simp only [List.getD_eq_getElem?_getD, List.getElem?_zipWith, ha, hz, List.getElem?_eq_getElem, Option.getD_some]
        at hone ⊢
      rw [if_pos hone]
    · rename_i hne
      exact absurd hq (hne ss)
  | notContiguous =>
    simp only [hq, Option.map_eq_some_iff] at h
    obtain ⟨⟨b1, v1⟩, _, h⟩ := h
    cases h
    exact ⟨makeCompactStrides_length _, onesZero_compact _ _⟩

theorem bcast_strides {st : Strides} (dims : List Nat) : ∀ (k : Nat) (acc r : Strides),
    ((dims.zipIdx k).foldlM (init := acc) fun acc (x : Nat × Nat) => do
        let s ← st[x.2]?
        return acc.set x.1 s) = some r →
    r.length = acc.length ∧ ∀ a, r.getD a 0 = acc.getD a 0 ∨
      ∃ m, m < dims.length ∧ k + m < st.length ∧ dims.getD m 0 = a ∧ r.getD a 0 = st.getD (k + m) 0 := by
  induction dims with
  | nil => intro k acc r h; simp at h; subst h; exact ⟨rfl, fun a => Or.inl rfl⟩
  | cons d ds ih =>
    intro k acc r h
    rw [List.zipIdx_cons, List.foldlM_cons] at h
    simp only [Option.bind_eq_bind, Option.bind_eq_some_iff, Option.pure_def, Option.some.injEq] at h
    obtain ⟨acc', ⟨s, hs, rfl⟩, h⟩ := h
    obtain ⟨h1, h2⟩ := ih (k + 1) _ r h
    refine ⟨by simpa using h1, fun a => ?_⟩
    rcases h2 a with h3 | ⟨m, m1, m2, m3, m4⟩
    · rw [h3]
      by_cases hd : d = a
      · subst hd
        by_cases hl : d < acc.length
        · right
          refine ⟨0, by simp, (List.getElem?_eq_some_iff.1 hs).1, rfl, ?_⟩
          simp [List.getD_eq_getElem?_getD, List.getElem?_set, hl, hs]
        · left
          rw [List.set_eq_of_length_le (by omega)]
      · left
        simp [List.getD_eq_getElem?_getD, List.getElem?_set, hd]
    · right
      refine ⟨m + 1, by simpa using m1, by omega, by simpa using m3, ?_⟩
      rw [m4]; congr 1; omega

theorem onesZero_broadcast {v w : View} {tgt : Shape} {inDims : List Nat} (hv : v.WF) (h1 : OnesZero v)
    (hl : (effDims inDims v.shape.length tgt.length).length = v.shape.length) (hr : v.shape.length ≤ tgt.length)
    (hc : ∀ k, k < v.shape.length → v.shape.getD k 0 = 1 ∨
      tgt.getD ((effDims inDims v.shape.length tgt.length).getD k 0) 0 = v.shape.getD k 0)
    (h : v.broadcastTo tgt inDims = some w) : w.WF ∧ OnesZero w := by
  have hvl : v.strides.length = v.shape.length := hv
  unfold View.broadcastTo at h
  split at h
  · cases h
  split at h
  · rename_i _ hne
    simp only [Option.bind_eq_bind, Option.bind_eq_some_iff, Option.pure_def, Option.some.injEq] at h
    obtain ⟨st, hst, rfl⟩ := h
    obtain ⟨b1, b2⟩ := bcast_strides inDims 0 _ st hst
    have he : effDims inDims v.shape.length tgt.length = inDims := by unfold effDims; rw [if_neg hne]
    rw [he] at hc hl
    refine ⟨by simpa [View.WF] using b1, fun a ha hone => ?_⟩
    simp only at ha hone ⊢
    rcases b2 a with h3 | ⟨m, m1, m2, m3, m4⟩
    · rw [h3]; simp [List.getD_eq_getElem?_getD, List.getElem?_replicate, ha]
    · rw [m4, Nat.zero_add]
      apply h1 m (by omega)
      rcases hc m (by omega) with hc | hc
      · exact hc
      · rw [← hc, m3]; exact hone
  · split at h
    · cases h
    · rename_i _ hne _
      simp only [ne_eq, not_not] at hne
      cases h
      have he : effDims inDims v.shape.length tgt.length = (List.range v.shape.length).map (· + (tgt.length - v.shape.length)) := by
        unfold effDims; rw [if_pos hne]
      rw [he] at hc
      refine ⟨by simp [View.WF]; omega, fun a ha hone => ?_⟩
      simp only at ha hone ⊢
      rw [hvl]
      rcases Nat.lt_or_ge a (tgt.length - v.shape.length) with hlt | hge
      · simp [List.getD_eq_getElem?_getD, List.getElem?_append, hlt, List.getElem?_replicate]
      · have e : (List.replicate (tgt.length - v.shape.length) (0 : Int) ++ v.strides).getD a 0
            = v.strides.getD (a - (tgt.length - v.shape.length)) 0 := by
          simp [List.getD_eq_getElem?_getD, List.getElem?_append, Nat.not_lt.2 hge]
        rw [e]
        have hk : a - (tgt.length - v.shape.length) < v.shape.length := by omega
        apply h1 _ hk
        rcases hc _ hk with hc | hc
        · exact hc
        · rw [← hc]
          have : ((List.range v.shape.length).map (· + (tgt.length - v.shape.length))).getD
              (a - (tgt.length - v.shape.length)) 0 = a := by
            simp [List.getD_eq_getElem?_getD, hk]; omega
          rw [this]; exact hone

/-- C06 (histories): every view reached without a strided slice has stride 0 on its size-1 axes, so
`c06_broadcast_partial` applies to it. -/
theorem c06_history {α : Type} {b : Array α} {v : View} (h : History b v) : v.WF ∧ OnesZero v := by
  induction h with
  | fresh b sh => exact ⟨makeCompactStrides_length _, onesZero_compact _ _⟩
  | slice _ hk hs ih =>
    unfold View.slice at hs
    simp only [Option.map_eq_some_iff] at hs
    obtain ⟨r, hr, rfl⟩ := hs
    refine ⟨by simp [View.WF], ?_⟩
    rw [onesZero_zip (by simp)]
    have := sliceAxes_ones hr hk
    intro p hp
    rw [List.zip_map', List.mem_map] at hp
    obtain ⟨q, hq, rfl⟩ := hp
    exact this q hq
  | transpose _ h ih => exact onesZero_transpose ih.1 ih.2 h
  | reverse _ _ h ih => exact onesZero_reverse ih.1 ih.2 h
  | reshape _ h ih => exact onesZero_reshape ih.1 ih.2 h
  | broadcast _ hl hr _ hc h ih => exact onesZero_broadcast ih.1 ih.2 hl hr hc h

/-- C06 (partial over histories: strided slices excluded): broadcasting any view reached by a history reads the source
element with size-1 axes clamped to 0. -/
theorem c06_broadcast_history_partial {α : Type} {b : Array α} {v : View} (h : History b v) {tgt : Shape}
    {inDims : List Nat} (hl : (effDims inDims v.shape.length tgt.length).length = v.shape.length)
    (hr : v.shape.length ≤ tgt.length) (hn : inDims.Nodup) (hb : ∀ a ∈ inDims, a < tgt.length)
    (hc : ∀ k, k < v.shape.length → v.shape.getD k 0 = 1 ∨
      tgt.getD ((effDims inDims v.shape.length tgt.length).getD k 0) 0 = v.shape.getD k 0) :
    ∃ w, v.broadcastTo tgt inDims = some w ∧ w.WF ∧ w.shape = tgt ∧ History b w ∧
      ∀ idx, InB idx tgt →
        InB (bcastSrc (effDims inDims v.shape.length tgt.length) v.shape idx) v.shape ∧
        w.get b idx = v.get b (bcastSrc (effDims inDims v.shape.length tgt.length) v.shape idx) := by
  obtain ⟨h1, h2⟩ := c06_history h
  obtain ⟨w, w1, w2, w3, w4⟩ := c06_broadcast_partial (α := α) h1 h2 hl hr hn hb hc
  exact ⟨w, w1, w2, w3, .broadcast h hl hr hn hc w1, w4 b⟩

/-- A slice of a transposed fresh array. -/
example : History (α := Nat) #[1, 2, 3, 4, 5, 6] ⟨[3, 1], [1, 0], 3⟩ :=
  .slice (start := [0, 1]) (stop := [3, 2]) (steps := none)
    (.transpose (w := ⟨[3, 2], [1, 3], 0⟩) (perm := [1, 0]) (.fresh #[1, 2, 3, 4, 5, 6] [2, 3]) (by decide)) (by decide) (by decide)

end Spu.Props

import Verif.Lemmas.Copy
import Mathlib.Algebra.BigOperators.Group.List.Basic

set_option autoImplicit false

/-! # C08, C45: concatenation, padding, expansion and in-place updates -/

namespace Spu.Props
open Model Spec

/-! ## concatenate -/

/-- Extents of the operands on the concatenation axis. -/
def exts {α : Type} (axis : Nat) (os : List (Array α × View)) : List Nat := os.map fun o => o.2.shape.getD axis 0

theorem concatLoop_spec {α : Type} {sh : Shape} {axis : Nat} (ha : axis < sh.length) (os : List (Array α × View)) :
    ∀ (s : Nat) (buf : Array α), (∀ o ∈ os, o.2.Valid o.1) →
    (∀ o ∈ os, o.2.shape = sh.set axis (o.2.shape.getD axis 0)) → buf.size = size sh →
    s + (exts axis os).sum ≤ sh.getD axis 0 →
    ∃ buf', concatLoop ⟨sh, makeCompactStrides sh, 0⟩ axis (List.replicate sh.length 0) os
        ((List.replicate sh.length 0).set axis s) (sh.set axis s) buf = some buf' ∧ buf'.size = size sh ∧
      (∀ k o, os[k]? = some o → ∀ i, InB i o.2.shape →
        InB (shiftAxis axis (s + ((exts axis os).take k).sum) i) sh ∧
        (⟨sh, makeCompactStrides sh, 0⟩ : View).get buf' (shiftAxis axis (s + ((exts axis os).take k).sum) i)
          = o.2.get o.1 i) ∧
      (∀ j, InB j sh → j.getD axis 0 < s →
        (⟨sh, makeCompactStrides sh, 0⟩ : View).get buf' j = (⟨sh, makeCompactStrides sh, 0⟩ : View).get buf j) ∧
      (∀ j, InB j sh → s ≤ j.getD axis 0 → j.getD axis 0 < s + (exts axis os).sum →
        ∃ k o i, os[k]? = some o ∧ InB i o.2.shape ∧ j = shiftAxis axis (s + ((exts axis os).take k).sum) i) := by
  induction os with
  | nil =>
    intro s buf _ _ hb _
    exact ⟨buf, rfl, hb, fun k o h => by simp at h, fun _ _ _ => rfl, fun j _ h1 h2 => by
      simp only [exts, List.map_nil, List.sum_nil] at h2; omega⟩
  | cons o os ih =>
    intro s buf hv hsh hb hle
    have hle' : s + (o.2.shape.getD axis 0 + (exts axis os).sum) ≤ sh.getD axis 0 := by
      simpa [exts] using hle
    obtain ⟨w, b1, s1, s2, s3, s4, s5⟩ := concat_step ha (hv o (by simp)) (hsh o (by simp)) hb (s := s) (by omega)
    obtain ⟨buf', r1, r2, r3, r4, r5⟩ := ih (s + o.2.shape.getD axis 0) b1 (fun o' h => hv o' (by simp [h]))
      (fun o' h => hsh o' (by simp [h])) s3 (by omega)
    have hol : o.2.shape.length = sh.length := by rw [hsh o (by simp)]; simp
    refine ⟨buf', ?_, r2, ?_, ?_, ?_⟩
    · have e1 : o.2.shape[axis]? = some (o.2.shape.getD axis 0) := by simp [hol, ha]
      have e2 : (sh.set axis s)[axis]? = some s := by simp [ha]
      simp only [concatLoop, e1, e2, Option.bind_eq_bind, Option.bind_some, List.set_set, s1, s2]
      exact r1
    · intro k o' hk i hi
      cases k with
      | zero =>
        simp only [List.getElem?_cons_zero, Option.some.injEq] at hk
        subst hk
        obtain ⟨t1, t2⟩ := s4 i hi
        have hil : i.length = sh.length := by rw [InB.length hi, hol]
        have hio := ((InB_iff _ _).1 hi).2 axis (by omega)
        have e : shiftAxis axis (s + ((exts axis (o :: os)).take 0).sum) i = i.set axis (s + i.getD axis 0) := by
          simp [shiftAxis, Nat.add_comm]
        rw [e]
        refine ⟨t1, ?_⟩
        rw [r4 _ t1, t2]
        rw [List.getD_eq_getElem?_getD, List.getElem?_set]
        simp only [hil, ha, if_true, Option.getD_some]
        omega
      | succ k =>
        have := r3 k o' (by simpa using hk) i hi
        have e : s + o.2.shape.getD axis 0 + ((exts axis os).take k).sum
            = s + ((exts axis (o :: os)).take (k + 1)).sum := by simp [exts, Nat.add_assoc]
        rw [e] at this
        exact this
    · intro j hj hlt
      rw [r4 j hj (by omega), s5 j hj (by omega)]
    · intro j hj h1 h2
      have h2 : j.getD axis 0 < s + (o.2.shape.getD axis 0 + (exts axis os).sum) := by simpa [exts] using h2
      have hjl : j.length = sh.length := InB.length hj
      rcases Nat.lt_or_ge (j.getD axis 0) (s + o.2.shape.getD axis 0) with hlt | hge
      · refine ⟨0, o, j.set axis (j.getD axis 0 - s), rfl, ?_, ?_⟩
        · rw [InB_iff]
          refine ⟨by simp [hjl, hol], fun a ha' => ?_⟩
          by_cases hax : axis = a
          · subst hax
            rw [List.getD_eq_getElem?_getD (l := j.set _ _), List.getElem?_set]
            simp only [hjl, ha, if_true, Option.getD_some]
            omega
          · have := ((InB_iff _ _).1 hj).2 a (by omega)
            rw [hsh o (by simp)]
            simpa [List.getD_eq_getElem?_getD, List.getElem?_set, hax] using this
        · apply List.ext_getElem
          · simp [shiftAxis]
          · intro a h3 h4
            simp only [shiftAxis, List.getElem_set]
            split
            · subst_vars
              rw [List.getD_eq_getElem?_getD, List.getElem?_set]
              have hj3 : j.getD a 0 = j[a] := by simp [h3]
              simp only [h3, if_true, Option.getD_some, List.take_zero, List.sum_nil]
              omega
            · rfl
      · obtain ⟨k, o', i, q1, q2, q3⟩ := r5 j hj hge (by omega)
        refine ⟨k + 1, o', i, by simpa using q1, q2, ?_⟩
        have e : s + o.2.shape.getD axis 0 + ((exts axis os).take k).sum
            = s + ((exts axis (o :: os)).take (k + 1)).sum := by simp [exts, Nat.add_assoc]
        rw [← e]; exact q3

/-- C08 (concatenation): operand `k` occupies the range of the axis that starts at the sum of the previous extents,
and these ranges cover the result. -/
theorem c08_concat {α : Type} (junk : α) (self : Array α × View) (others : List (Array α × View)) {axis : Nat}
    (ha : axis < self.2.shape.length) (hv : ∀ o ∈ self :: others, o.2.Valid o.1)
    (hsh : ∀ o ∈ others, o.2.shape = self.2.shape.set axis (o.2.shape.getD axis 0)) :
    ∃ buf R, concatenate junk self others axis = some (buf, R) ∧ R.Valid buf ∧
      R.shape = self.2.shape.set axis ((self :: others).map fun o => o.2.shape.getD axis 0).sum ∧
      (∀ k o, (self :: others)[k]? = some o → ∀ i, InB i o.2.shape →
        InB (shiftAxis axis (((self :: others).map fun o => o.2.shape.getD axis 0).take k).sum i) R.shape ∧
        R.get buf (shiftAxis axis (((self :: others).map fun o => o.2.shape.getD axis 0).take k).sum i)
          = o.2.get o.1 i) ∧
      (∀ j, InB j R.shape → ∃ k o i, (self :: others)[k]? = some o ∧ InB i o.2.shape ∧
        j = shiftAxis axis (((self :: others).map fun o => o.2.shape.getD axis 0).take k).sum i) := by
  have hex : (self :: others).mapM (fun o => o.2.shape[axis]?) = some (exts axis (self :: others)) := by
    have hall : ∀ o ∈ self :: others, o.2.shape[axis]? = some (o.2.shape.getD axis 0) := by
      intro o ho
      have : axis < o.2.shape.length := by
        rcases List.mem_cons.1 ho with rfl | h
        · exact ha
        · rw [hsh o h]; simpa using ha
      simp [this]
    unfold exts
    generalize self :: others = os at hall ⊢
    induction os with
    | nil => rfl
    | cons o os ih =>
      simp only [List.mapM_cons, hall o (by simp), ih (fun o h => hall o (by simp [h])), List.map_cons]
      rfl
  generalize ht : (exts axis (self :: others)).sum = t at *
  have hl : (self.2.shape.set axis t).length = self.2.shape.length := by simp
  obtain ⟨buf, c1, c2, c3, _, c5⟩ := concatLoop_spec (sh := self.2.shape.set axis t) (axis := axis) (by simpa using ha)
    (self :: others) 0 (Array.replicate (numel (self.2.shape.set axis t)) junk) hv
    (by
      intro o ho
      rw [List.set_set]
      rcases List.mem_cons.1 ho with rfl | h
      · apply List.ext_getElem
        · simp
        · intro a h1 h2
          simp only [List.getElem_set]
          split
          · subst_vars; simp [h1]
          · rfl
      · exact hsh o h)
    (by simp [numel_eq_size]) (by rw [ht]; simp [List.getD_eq_getElem?_getD, List.getElem?_set, ha])
  refine ⟨buf, ⟨self.2.shape.set axis t, makeCompactStrides (self.2.shape.set axis t), 0⟩, ?_, compact_valid c2, ?_, ?_, ?_⟩
  · unfold concatenate
    have h0 : (List.replicate self.2.shape.length 0).set axis 0 = List.replicate self.2.shape.length 0 := by simp
    rw [hl, h0, List.set_set] at c1
    simp only [hex, Option.bind_eq_bind, Option.bind_some, ht, c1, Option.pure_def]
  · rw [← ht]; rfl
  · intro k o hk i hi
    have := c3 k o hk i hi
    rw [Nat.zero_add] at this
    exact this
  · intro j hj
    have hj' : InB j (self.2.shape.set axis t) := hj
    have hb := ((InB_iff _ _).1 hj').2 axis (by simpa using ha)
    obtain ⟨k, o, i, q1, q2, q3⟩ := c5 j hj' (by omega) (by
      rw [ht]; simp [List.getD_eq_getElem?_getD, List.getElem?_set, ha] at hb ⊢; omega)
    rw [Nat.zero_add] at q3
    exact ⟨k, o, i, q1, q2, q3⟩

/-- A transposed 2x2 operand and a 2x1 operand joined on axis 1. -/
example : concatenate 0 (#[1, 2, 3, 4], ⟨[2, 2], [1, 2], 0⟩) [(#[7, 8], ⟨[2, 1], [1, 0], 0⟩)] 1
    = some (#[1, 3, 7, 2, 4, 8], ⟨[2, 3], [3, 1], 0⟩) := by decide +kernel

/-! ## expand -/

theorem expandLoop_spec {α : Type} {n : Nat} {x : α} (fuel : Nat) : ∀ (copied : Nat) (buf : Array α),
    buf.size = n → 1 ≤ copied → copied ≤ n → n - copied < fuel → (∀ i, i < copied → buf[i]? = some x) →
    ∃ buf', expandLoop n fuel copied buf = some buf' ∧ buf'.size = n ∧ ∀ i, i < n → buf'[i]? = some x := by
  induction fuel with
  | zero => intro copied buf _ _ _ h; omega
  | succ fuel ih =>
    intro copied buf hb h1 h2 hf hx
    unfold expandLoop
    split
    · subst_vars; exact ⟨buf, rfl, rfl, hx⟩
    · rename_i hne
      rw [if_neg (by omega)]
      apply ih
      · simpa using hb
      · omega
      · omega
      · omega
      · intro i hi
        have hib : i < buf.size := by omega
        rw [Array.getElem?_ofFn]
        simp only [hib, dif_pos]
        by_cases hc : copied ≤ i
        · rw [if_pos ⟨hc, by omega⟩, hx (i - copied) (by omega)]; rfl
        · rw [if_neg (by omega)]
          have := hx i (by omega)
          rw [Array.getElem?_eq_getElem hib] at this
          exact this

/-- `expand` fills every element of a non-empty result with the single source element. -/
theorem c08_expand_partial {α : Type} (junk x : α) {sbuf : Array α} {v : View} {tgt : Shape} (h1 : size v.shape = 1)
    (hx : rd sbuf v.offset = some x) (hp : 0 < size tgt) :
    ∃ buf R, expand junk sbuf v tgt = some (buf, R) ∧ R = ⟨tgt, makeCompactStrides tgt, 0⟩ ∧ buf.size = size tgt ∧
      ∀ j, InB j tgt → R.get buf j = some x := by
  obtain ⟨b0, w1, w2, w3, _⟩ := wr_spec (d := Array.replicate (numel tgt) junk) (q := 0)
    (rd_of_bounds (by omega) (by simp [numel_eq_size]; omega)) x
  have hs0 : b0.size = numel tgt := by rw [w2]; simp
  obtain ⟨b, e1, e2, e3⟩ := expandLoop_spec (n := numel tgt) (x := x) (numel tgt + 1) 1 b0 hs0 le_rfl
    (by rw [numel_eq_size]; omega) (by omega) (fun i hi => by
      have : i = 0 := by omega
      subst this; simpa [rd] using w3)
  refine ⟨b, _, ?_, rfl, by rw [e2, numel_eq_size], fun j hj => ?_⟩
  · unfold expand
    rw [if_neg (by rw [numel_eq_size, h1]; simp)]
    simp only [hx, w1, e1, Option.bind_eq_bind, Option.bind_some, Option.pure_def]
  · rw [View.get, compact_addr hj]
    have := e3 (pos j tgt) (by rw [numel_eq_size]; exact pos_lt_size hj)
    simpa [rd] using this

example : expand 0 #[5, 6] ⟨[1], [0], 1⟩ [2, 3] = some (#[6, 6, 6, 6, 6, 6], ⟨[2, 3], [3, 1], 0⟩) := by decide +kernel

/-- Finding: expanding to an empty shape never succeeds (one element is written into an empty buffer and the doubling
loop cannot reach its exit condition). -/
theorem c08_expand_empty {α : Type} (junk : α) (sbuf : Array α) (v : View) {tgt : Shape} (h : size tgt = 0) :
    expand junk sbuf v tgt = none := by
  unfold expand
  split
  · rfl
  · rw [numel_eq_size tgt, h]
    cases rd sbuf v.offset with
    | none => rfl
    | some x => simp [wr]

/-! ## pad -/

theorem PadHit.left_unique {l k i i' j} (h : PadHit l k i j) (h' : PadHit l k i' j) : i = i' := by
  induction h generalizing i' with
  | nil => cases h'; rfl
  | @cons l k i j ls ks is js e _ ih =>
    cases h' with
    | @cons _ _ i' _ _ _ is' _ e' h' =>
      rw [ih h']
      have h1 : (i : Int) * ((k : Int) + 1) = (i' : Int) * ((k : Int) + 1) := by omega
      have h2 := Int.eq_of_mul_eq_mul_right (by omega) h1
      have : i = i' := by omega
      rw [this]

theorem PadHit.right_unique {l k i j j'} (h : PadHit l k i j) (h' : PadHit l k i j') : j = j' := by
  induction h generalizing j' with
  | nil => cases h'; rfl
  | cons e _ ih =>
    cases h' with
    | cons e' h' => rw [ih h']; congr 1; omega

theorem padTarget_spec {d : Shape} {low : List Int} {k : List Nat} {i : Index} (h1 : low.length = d.length)
    (h2 : k.length = d.length) (h3 : i.length = d.length) :
    (∀ t, padTarget d low k i = some t → PadHit low k i t ∧ InB t d) ∧
    (padTarget d low k i = none → ∀ j, InB j d → ¬ PadHit low k i j) := by
  induction d generalizing low k i with
  | nil =>
    simp only [List.length_nil, List.length_eq_zero_iff] at h1 h2 h3
    subst h1 h2 h3
    simp only [padTarget, Option.some.injEq, reduceCtorEq, false_implies, and_true]
    rintro t rfl
    exact ⟨.nil, .nil⟩
  | cons d ds ih =>
    cases low with
    | nil => simp at h1
    | cons l ls => cases k with
      | nil => simp at h2
      | cons k ks => cases i with
        | nil => simp at h3
        | cons i is =>
          obtain ⟨a, b⟩ := ih (low := ls) (k := ks) (i := is) (by simpa using h1) (by simpa using h2) (by simpa using h3)
          simp only [padTarget]
          split
          · rename_i hbad
            refine ⟨fun t h => by simp at h, fun _ j hj hh => ?_⟩
            cases hj with
            | cons hj _ => cases hh with
              | cons e _ => omega
          · rename_i hok
            generalize hm : l + (i : Int) * ((k : Int) + 1) = m at hok
            refine ⟨fun t h => ?_, fun h j hj hh => ?_⟩
            · simp only [Option.map_eq_some_iff] at h
              obtain ⟨t', h', rfl⟩ := h
              obtain ⟨a1, a2⟩ := a t' h'
              exact ⟨.cons (by omega) a1, .cons (by omega) a2⟩
            · simp only [Option.map_eq_none_iff] at h
              cases hj with
              | cons _ hj => cases hh with
                | cons _ hh => exact b h _ hj hh

theorem deducePadShape_length {sh : Shape} {low high : List Int} {k : List Nat} {r : Shape}
    (h : deducePadShape sh low high k = some r) :
    low.length = sh.length ∧ k.length = sh.length ∧ r.length = sh.length := by
  induction sh generalizing low high k r with
  | nil =>
    unfold deducePadShape at h
    split at h
    · simp at h; subst h; simp
    · simp_all
    · cases h
  | cons d ds ih =>
    cases low with
    | nil => simp [deducePadShape] at h
    | cons l ls => cases high with
      | nil => simp [deducePadShape] at h
      | cons h' hs => cases k with
        | nil => simp [deducePadShape] at h
        | cons k ks =>
          simp only [deducePadShape, Option.bind_eq_bind, Option.bind_eq_some_iff] at h
          obtain ⟨r', hr, h⟩ := h
          split at h
          · cases h
          · simp only [Option.pure_def, Option.some.injEq] at h
            subst h
            obtain ⟨a, b, c⟩ := ih hr
            simp [a, b, c]

theorem padLoop_spec {α : Type} {sbuf : Array α} {v : View} {sh : Shape} {low : List Int} {ks : List Nat}
    (hv : v.Valid sbuf) (hl1 : low.length = sh.length) (hl2 : ks.length = sh.length) (hl3 : v.shape.length = sh.length)
    (n : Nat) : ∀ (p : Nat) (idx : Index) (buf : Array α), (0 < n → InB idx v.shape ∧ pos idx v.shape = p) →
    p + n ≤ size v.shape → buf.size = size sh →
    ∃ buf', padLoop sbuf v ⟨sh, makeCompactStrides sh, 0⟩ low ks n idx buf = some buf' ∧ buf'.size = size sh ∧
      (∀ i j, InB i v.shape → p ≤ pos i v.shape → pos i v.shape < p + n → InB j sh → PadHit low ks i j →
        (⟨sh, makeCompactStrides sh, 0⟩ : View).get buf' j = v.get sbuf i) ∧
      (∀ j, InB j sh → (∀ i, InB i v.shape → p ≤ pos i v.shape → pos i v.shape < p + n → ¬ PadHit low ks i j) →
        (⟨sh, makeCompactStrides sh, 0⟩ : View).get buf' j = (⟨sh, makeCompactStrides sh, 0⟩ : View).get buf j) := by
  induction n with
  | zero => intro p idx buf _ _ hb; exact ⟨buf, rfl, hb, fun i j _ h1 h2 => by omega, fun _ _ _ => rfl⟩
  | succ n ih =>
    intro p idx buf hi hle hb
    obtain ⟨hi, hp⟩ := hi (by omega)
    obtain ⟨b1, b2⟩ := bump_spec hi
    have hnext : 0 < n → InB ((bumpIndices v.shape idx).getD idx) v.shape ∧
        pos ((bumpIndices v.shape idx).getD idx) v.shape = p + 1 := by
      intro hn
      cases hbump : bumpIndices v.shape idx with
      | none => have := b2 hbump; omega
      | some idx' => have := b1 idx' hbump; simp only [Option.getD_some]; exact ⟨this.1, by omega⟩
    obtain ⟨t1, t2⟩ := padTarget_spec (d := sh) (low := low) (k := ks) (i := idx) hl1 hl2 (by rw [InB.length hi, hl3])
    -- one step
    obtain ⟨bm, m1, m2, m3, m4⟩ : ∃ bm, padStep sbuf v ⟨sh, makeCompactStrides sh, 0⟩ low ks idx buf = some bm ∧ bm.size = size sh ∧
        (∀ j, InB j sh → PadHit low ks idx j →
          (⟨sh, makeCompactStrides sh, 0⟩ : View).get bm j = v.get sbuf idx) ∧
        (∀ j, InB j sh → ¬ PadHit low ks idx j →
          (⟨sh, makeCompactStrides sh, 0⟩ : View).get bm j = (⟨sh, makeCompactStrides sh, 0⟩ : View).get buf j) := by
      unfold padStep
      cases ht : padTarget sh low ks idx with
      | none => exact ⟨buf, rfl, hb, fun j hj h => absurd h (t2 ht j hj), fun _ _ _ => rfl⟩
      | some t =>
        obtain ⟨u1, u2⟩ := t1 t ht
        obtain ⟨x, hx⟩ := hv.2 idx hi
        obtain ⟨bm, w1, w2, w3, w4⟩ := wr_spec ((compact_valid hb).2 t u2) x
        refine ⟨bm, by simp only [hx, Option.bind_eq_bind, Option.bind_some, w1], by omega, fun j hj h => ?_, fun j hj h => ?_⟩
        · rw [PadHit.right_unique h u1, View.get, w3, hx]
        · apply w4
          intro e
          have := compact_inj sh 0 j t hj u2 e
          subst this
          exact h u1
    obtain ⟨buf', r1, r2, r3, r4⟩ := ih (p + 1) _ bm hnext (by omega) m2
    refine ⟨buf', ?_, r2, ?_, ?_⟩
    · simp only [padLoop, Option.bind_eq_bind, m1, Option.bind_some]
      exact r1
    · intro i j hi' h1 h2 hj hh
      rcases Nat.eq_or_lt_of_le h1 with heq | hlt
      · have : i = idx := pos_inj hi' hi (by omega)
        subst this
        rw [r4 j hj, m3 j hj hh]
        intro i' hi'' h3 h4 hh'
        have := PadHit.left_unique hh hh'
        subst this
        omega
      · exact r3 i j hi' (by omega) (by omega) hj hh
    · intro j hj hno
      rw [r4 j hj (fun i hi' h1 h2 => hno i hi' (by omega) (by omega)), m4 j hj (hno idx hi (by omega) (by omega))]

theorem padRanges_spec {α : Type} {sbuf : Array α} {v : View} {sh : Shape} {low : List Int} {ks : List Nat} {x : α}
    (hv : v.Valid sbuf) (hl1 : low.length = sh.length) (hl2 : ks.length = sh.length) (hl3 : v.shape.length = sh.length)
    (ranges : List (Nat × Nat)) : ∀ (S : Nat → Prop) (buf : Array α),
    (∀ r ∈ ranges, r.1 < r.2 ∧ r.2 ≤ size v.shape) → buf.size = size sh →
    (∀ i j, InB i v.shape → S (pos i v.shape) → InB j sh → PadHit low ks i j →
      (⟨sh, makeCompactStrides sh, 0⟩ : View).get buf j = v.get sbuf i) →
    (∀ j, InB j sh → (∀ i, InB i v.shape → S (pos i v.shape) → ¬ PadHit low ks i j) →
      (⟨sh, makeCompactStrides sh, 0⟩ : View).get buf j = some x) →
    ∃ buf', (ranges.foldlM (init := buf) fun b r => do
        let idx ← unflattenIndex r.1 v.shape
        padLoop sbuf v ⟨sh, makeCompactStrides sh, 0⟩ low ks (r.2 - r.1) idx b) = some buf' ∧ buf'.size = size sh ∧
      (∀ i j, InB i v.shape → (S (pos i v.shape) ∨ ∃ r ∈ ranges, r.1 ≤ pos i v.shape ∧ pos i v.shape < r.2) →
        InB j sh → PadHit low ks i j → (⟨sh, makeCompactStrides sh, 0⟩ : View).get buf' j = v.get sbuf i) ∧
      (∀ j, InB j sh → (∀ i, InB i v.shape →
        (S (pos i v.shape) ∨ ∃ r ∈ ranges, r.1 ≤ pos i v.shape ∧ pos i v.shape < r.2) → ¬ PadHit low ks i j) →
        (⟨sh, makeCompactStrides sh, 0⟩ : View).get buf' j = some x) := by
  induction ranges with
  | nil => intro S buf _ hb h1 h2; exact ⟨buf, rfl, hb, by simpa using h1, by simpa using h2⟩
  | cons r rs ih =>
    intro S buf hr hb h1 h2
    obtain ⟨hr1, hr2⟩ := hr r (by simp)
    obtain ⟨idx, u1, u2, u3⟩ := unflattenIndex_spec (sh := v.shape) (p := r.1) (by omega)
    obtain ⟨b1, l1, l2, l3, l4⟩ := padLoop_spec hv hl1 hl2 hl3 (r.2 - r.1) r.1 idx buf (fun _ => ⟨u2, u3⟩) (by omega) hb
    obtain ⟨buf', a, b, c, d⟩ := ih (fun p => S p ∨ (r.1 ≤ p ∧ p < r.2)) b1 (fun r' h => hr r' (by simp [h])) l2
      (by
        intro i j hi hS hj hh
        by_cases hin : r.1 ≤ pos i v.shape ∧ pos i v.shape < r.2
        · exact l3 i j hi hin.1 (by omega) hj hh
        · rw [l4 j hj, h1 i j hi (by tauto) hj hh]
          intro i' hi' h3 h4 hh'
          have := PadHit.left_unique hh hh'
          subst this
          omega)
      (by
        intro j hj hno
        rw [l4 j hj (fun i hi h3 h4 => hno i hi (Or.inr ⟨h3, by omega⟩)), h2 j hj (fun i hi hS => hno i hi (Or.inl hS))])
    refine ⟨buf', ?_, b, ?_, ?_⟩
    · simp only [List.foldlM_cons, u1, Option.bind_eq_bind, Option.bind_some, l1]
      exact a
    · intro i j hi hS hj hh
      refine c i j hi ?_ hj hh
      rcases hS with hS | ⟨r', hr', h3⟩
      · exact Or.inl (Or.inl hS)
      · rcases List.mem_cons.1 hr' with rfl | hr'
        · exact Or.inl (Or.inr h3)
        · exact Or.inr ⟨r', hr', h3⟩
    · intro j hj hno
      refine d j hj fun i hi hS => hno i hi ?_
      rcases hS with (hS | h3) | ⟨r', hr', h3⟩
      · exact Or.inl hS
      · exact Or.inr ⟨r, by simp, h3⟩
      · exact Or.inr ⟨r', by simp [hr'], h3⟩

/-- C08 (padding): for every way `pforeach` may split and order the work, the result holds operand element `i` at
`low + i * (interior + 1)` and the padding value at every index not of this form.  Missing: results with no elements,
see `c08_pad_empty`. -/
theorem c08_pad_partial {α : Type} (junk x : α) {sbuf pbuf : Array α} {v pv : View} {low high : List Int}
    {interior : List Nat} {shp : Shape} {ranges : List (Nat × Nat)} (hv : v.Valid sbuf) (hp1 : size pv.shape = 1)
    (hpx : rd pbuf pv.offset = some x) (hs : deducePadShape v.shape low high interior = some shp) (hne : 0 < size shp)
    (hr : ∀ r ∈ ranges, r.1 < r.2 ∧ r.2 ≤ size v.shape)
    (hcover : ∀ p, p < size v.shape → ∃ r ∈ ranges, r.1 ≤ p ∧ p < r.2) :
    ∃ buf R, pad junk ranges sbuf v pbuf pv low high interior = some (buf, R) ∧ R.Valid buf ∧ R.shape = shp ∧
      (∀ i j, InB i v.shape → InB j shp → PadHit low interior i j → R.get buf j = v.get sbuf i) ∧
      (∀ j, InB j shp → (∀ i, InB i v.shape → ¬ PadHit low interior i j) → R.get buf j = some x) := by
  obtain ⟨l1, l2, l3⟩ := deducePadShape_length hs
  obtain ⟨b0, R, e1, rfl, e2, e3⟩ := c08_expand_partial junk x hp1 hpx hne
  obtain ⟨buf, a, b, c, d⟩ := padRanges_spec (x := x) hv (sh := shp) (low := low) (ks := interior) (by omega) (by omega)
    (by omega) ranges (fun _ => False) b0 hr e2 (fun _ _ _ h => h.elim) (fun j hj _ => e3 j hj)
  refine ⟨buf, _, ?_, compact_valid b, rfl, ?_, ?_⟩
  · unfold pad
    simp only [hs, e1, Option.bind_eq_bind, Option.bind_some] at a ⊢
    rw [a]; rfl
  · intro i j hi hj hh
    exact c i j hi (Or.inr (hcover _ (pos_lt_size hi))) hj hh
  · intro j hj hno
    exact d j hj fun i hi _ => hno i hi

/-- C08 (padding, extents): a non-empty axis gets `low + high + extent + (extent - 1) * interior` elements. -/
theorem c08_pad_shape {sh : Shape} {low high : List Int} {k : List Nat} {r : Shape}
    (h : deducePadShape sh low high k = some r) {a : Nat} (ha : a < sh.length) :
    ((r.getD a 0 : Nat) : Int) = low.getD a 0 + high.getD a 0 + (sh.getD a 0 : Nat)
      + (((sh.getD a 0 : Nat) : Int) - 1) * (k.getD a 0 : Nat) := by
  induction sh generalizing low high k r a with
  | nil => simp at ha
  | cons d ds ih =>
    cases low with
    | nil => simp [deducePadShape] at h
    | cons l ls => cases high with
      | nil => simp [deducePadShape] at h
      | cons h' hs => cases k with
        | nil => simp [deducePadShape] at h
        | cons k ks =>
          simp only [deducePadShape, Option.bind_eq_bind, Option.bind_eq_some_iff] at h
          obtain ⟨r', hr, h⟩ := h
          split at h
          · cases h
          · rename_i hnn
            simp only [Option.pure_def, Option.some.injEq] at h
            subst h
            cases a with
            | zero =>
              simp only [List.getD_cons_zero]
              rw [Int.toNat_of_nonneg (by omega)]
              ring
            | succ a => simpa using ih hr (by simpa using ha)

/-- Low edge -1, high edge 1, interior 1 on a vector of three, with the work split in two ranges run backwards. -/
example : pad 0 [(2, 3), (0, 2)] #[1, 2, 3] ⟨[3], [1], 0⟩ #[9] ⟨[], [], 0⟩ [-1] [1] [1]
    = some (#[9, 2, 9, 3, 9], ⟨[5], [1], 0⟩) := by decide +kernel

example : PadHit [-1] [1] [1] [1] := .cons (by decide) .nil

/-- Finding: padding (or cropping with negative edges) to a result without elements never succeeds. -/
theorem c08_pad_empty {α : Type} (junk : α) {sbuf pbuf : Array α} {v pv : View} {low high : List Int}
    {interior : List Nat} {shp : Shape} {ranges : List (Nat × Nat)}
    (hs : deducePadShape v.shape low high interior = some shp) (h0 : size shp = 0) :
    pad junk ranges sbuf v pbuf pv low high interior = none := by
  unfold pad
  simp only [hs, Option.bind_eq_bind, Option.bind_some, c08_expand_empty junk pbuf pv h0, Option.bind_none]

/-- Cropping a vector of two elements to nothing. -/
example : deducePadShape [2] [-1] [-1] [0] = some [0] := by decide +kernel

/-- Finding: an empty axis with interior padding gets a negative extent, although the padded axis should have
`low + high` elements. -/
theorem c08_pad_empty_operand (l h : Int) (k : Nat) (hk : l + h < k) : deducePadShape [0] [l] [h] [k] = none := by
  simp only [deducePadShape, Option.bind_eq_bind, Option.bind_some]
  rw [if_pos (by push_cast; omega)]

end Spu.Props

import Verif.Lemmas.Iter
import Mathlib.Data.List.GetD
import Mathlib.Tactic.LinearCombination
import Mathlib.Data.List.Perm.Subperm

set_option autoImplicit false

/-! slice / transpose / reverse / broadcast lemmas. -/

namespace Spu
open Model Spec

theorem ceilDiv_form (n k : Nat) (hk : 0 < k) : n / k + (if n % k ≠ 0 then 1 else 0) = (n + (k - 1)) / k := by
  have h := Nat.div_add_mod n k
  have hm := Nat.mod_lt n hk
  generalize n / k = q at *
  generalize n % k = r at *
  subst h
  split
  · have : k * q + r + (k - 1) = k * (q + 1) + (r - 1) := by rw [Nat.mul_add]; omega
    rw [this, Nat.mul_add_div hk, Nat.div_eq_of_lt (by omega)]
  · have : k * q + r + (k - 1) = k * q + (k - 1) := by omega
    rw [this, Nat.mul_add_div hk, Nat.div_eq_of_lt (by omega)]

theorem sliceAxis_spec {d : Nat} {st : Int} {b e : Nat} {step : Option Nat} {r : Nat × Int}
    (h : sliceAxis d st b e step = some r) :
    0 < step.getD 1 ∨ e - b = 1 := by
  unfold sliceAxis at h
  split at h
  · cases h
  · dsimp only at h
    split at h
    · right; assumption
    · left
      cases step with
      | none => simp
      | some k =>
        simp only at h
        split at h
        · cases h
        · simp; omega

theorem sliceAxis_shape {d : Nat} {st : Int} {b e : Nat} {step : Option Nat} {r : Nat × Int}
    (h : sliceAxis d st b e step = some r) (hk : 0 < step.getD 1) :
    e ≤ d ∧ r.1 = (e - b + (step.getD 1 - 1)) / step.getD 1 ∧
    ∀ i, i < r.1 → b + i * step.getD 1 < e ∧ (i : Int) * r.2 = ((i * step.getD 1 : Nat) : Int) * st := by
  unfold sliceAxis at h
  split at h
  · cases h
  · rename_i hle
    dsimp only at h
    refine ⟨by omega, ?_⟩
    split at h
    · rename_i h1
      simp only [Option.some.injEq] at h
      subst h
      have : e - b + (step.getD 1 - 1) = step.getD 1 := by omega
      refine ⟨by rw [this, Nat.div_self hk], ?_⟩
      intro i hi
      have : i = 0 := by simpa using hi
      subst this
      simp; omega
    · cases step with
      | none =>
        simp only [Option.some.injEq] at h
        subst h
        simp only [Option.getD_none, Nat.sub_self, Nat.add_zero, Nat.div_one, Nat.mul_one, true_and]
        intro i hi; exact ⟨by omega, trivial⟩
      | some k =>
        simp only [Option.getD_some] at h hk ⊢
        split at h
        · cases h
        · simp only [Option.some.injEq] at h
          subst h
          have hc := ceilDiv_form (e - b) k hk
          dsimp only
          refine ⟨hc, ?_⟩
          intro i hi
          rw [hc] at hi
          have h1 : i + 1 ≤ (e - b + (k - 1)) / k := hi
          have h2 : (i + 1) * k ≤ e - b + (k - 1) := (Nat.le_div_iff_mul_le hk).1 h1
          rw [Nat.add_mul] at h2
          refine ⟨by omega, ?_⟩
          push_cast; ring

/-- Steps actually used: empty means all ones. -/
def effSteps (steps : Option (List Nat)) (n : Nat) : List Nat := steps.getD (List.replicate n 1)

theorem sliceAxes_spec {sh : Shape} {st : Strides} {b e : Index} {steps : Option (List Nat)}
    {r : List (Nat × Int)} (h : sliceAxes sh st b e steps = some r)
    (hk : ∀ k ∈ effSteps steps sh.length, 0 < k) :
    b.length = sh.length ∧ st.length = sh.length ∧
    r.map Prod.fst = sliceShape b e (effSteps steps sh.length) ∧
    ∀ i, InB i (r.map Prod.fst) →
      InB (affine b (effSteps steps sh.length) i) sh ∧
      strideDot b st + strideDot i (r.map Prod.snd) = strideDot (affine b (effSteps steps sh.length) i) st := by
  fun_induction sliceAxes sh st b e steps generalizing r with
  | case1 =>
    simp only [Option.some.injEq] at h; subst h
    refine ⟨rfl, rfl, rfl, fun i hi => ?_⟩
    cases hi; exact ⟨.nil, rfl⟩
  | case2 =>
    simp only [Option.some.injEq] at h; subst h
    refine ⟨rfl, rfl, rfl, fun i hi => ?_⟩
    cases hi; exact ⟨.nil, rfl⟩
  | case3 d ds s ss b bs e es ih =>
    simp only [Option.bind_eq_bind, Option.pure_def, Option.bind_eq_some_iff, Option.some.injEq] at h
    obtain ⟨a, ha, r', hr', rfl⟩ := h
    have hk' : ∀ k ∈ effSteps none ds.length, 0 < k := by
      intro k hk; simp [effSteps] at hk; omega
    obtain ⟨l1, l2, l3, l4⟩ := ih hr' hk'
    have hax := sliceAxis_shape ha (by simp)
    simp only [effSteps, Option.getD_none, List.length_cons, List.replicate_succ] at l3 l4 hax ⊢
    refine ⟨by simp [l1], by simp [l2], by simp [sliceShape, l3, hax.2.1], fun i hi => ?_⟩
    cases hi with
    | @cons i _ is _ hi his =>
      obtain ⟨m1, m2⟩ := l4 is his
      obtain ⟨m3, m4⟩ := hax.2.2 i hi
      refine ⟨.cons (by omega) m1, ?_⟩
      simp only [List.map_cons, strideDot_cons, affine, ← m2]
      rw [m4]; push_cast; ring
  | case4 d ds s ss b bs e es k ks ih =>
    simp only [Option.bind_eq_bind, Option.pure_def, Option.bind_eq_some_iff, Option.some.injEq] at h
    obtain ⟨a, ha, r', hr', rfl⟩ := h
    simp only [effSteps, Option.getD_some] at hk ih ⊢
    obtain ⟨l1, l2, l3, l4⟩ := ih hr' (fun x hx => hk x (by simp [hx]))
    have hax := sliceAxis_shape ha (by simpa using hk k (by simp))
    simp only [Option.getD_some] at hax
    refine ⟨by simp [l1], by simp [l2], by simp [sliceShape, l3, hax.2.1], fun i hi => ?_⟩
    cases hi with
    | @cons i _ is _ hi his =>
      obtain ⟨m1, m2⟩ := l4 is his
      obtain ⟨m3, m4⟩ := hax.2.2 i hi
      refine ⟨.cons (by omega) m1, ?_⟩
      simp only [List.map_cons, strideDot_cons, affine, ← m2]
      rw [m4]; push_cast; ring
  | case5 => cases h

/-- strideDot as a sum over axes. -/
theorem strideDot_eq_sum (i : Index) (s : Strides) (h : i.length = s.length) :
    strideDot i s = ((List.range s.length).map fun a => ((i.getD a 0 : Nat) : Int) * s.getD a 0).sum := by
  induction s generalizing i with
  | nil => cases i with
    | nil => rfl
    | cons => simp at h
  | cons s ss ih =>
    cases i with
    | nil => simp at h
    | cons x xs =>
      have hl : xs.length = ss.length := by simpa using h
      rw [strideDot_cons, ih xs hl, List.length_cons, List.range_succ_eq_map, List.map_cons, List.sum_cons,
        List.map_map]
      simp only [List.getD_cons_zero, Function.comp_def, List.getD_cons_succ]
      ring

theorem InB_iff (i sh : List Nat) : InB i sh ↔ i.length = sh.length ∧ ∀ a, a < sh.length → i.getD a 0 < sh.getD a 0 := by
  constructor
  · intro h
    induction h with
    | nil => simp
    | cons h _ ih =>
      refine ⟨by simp [ih.1], fun a ha => ?_⟩
      cases a with
      | zero => simpa
      | succ a => simpa using ih.2 a (by simpa using ha)
  · induction sh generalizing i with
    | nil => rintro ⟨h, _⟩; cases i with
      | nil => exact .nil
      | cons => simp at h
    | cons d ds ih =>
      rintro ⟨h1, h2⟩
      cases i with
      | nil => simp at h1
      | cons x xs =>
        exact .cons (by simpa using h2 0 (by simp)) (ih xs ⟨by simpa using h1, fun a ha => by
          simpa using h2 (a + 1) (by simp; omega)⟩)

theorem mapM_getElem {α : Type} (l : List α) (perm : List Nat) (d : α) (r : List α)
    (h : perm.mapM (fun a => l[a]?) = some r) :
    (∀ a ∈ perm, a < l.length) ∧ r = perm.map (fun a => l.getD a d) := by
  induction perm generalizing r with
  | nil => simp at h; subst h; simp
  | cons p ps ih =>
    simp only [List.mapM_cons, Option.bind_eq_bind, Option.pure_def, Option.bind_eq_some_iff, Option.some.injEq] at h
    obtain ⟨x, hx, r', hr', rfl⟩ := h
    obtain ⟨h1, h2⟩ := ih r' hr'
    obtain ⟨hlt, hx⟩ := List.getElem?_eq_some_iff.1 hx
    refine ⟨by simpa using ⟨hlt, h1⟩, ?_⟩
    simp only [List.map_cons, List.getD_eq_getElem _ _ hlt, hx, h2]

theorem mapM_getElem_some {α : Type} (l : List α) (perm : List Nat) (d : α)
    (h : ∀ a ∈ perm, a < l.length) : perm.mapM (fun a => l[a]?) = some (perm.map (fun a => l.getD a d)) := by
  induction perm with
  | nil => simp
  | cons p ps ih =>
    have hp := h p (by simp)
    simp [List.mapM_cons, ih (fun a ha => h a (by simp [ha])), List.getElem?_eq_getElem hp]

/-- A duplicate-free list of n numbers below n is a permutation of 0..n-1. -/
theorem perm_range {l : List Nat} {n : Nat} (hl : l.length = n) (hn : l.Nodup) (hb : ∀ a ∈ l, a < n) :
    l.Perm (List.range n) := by
  have hsub : l ⊆ List.range n := fun a ha => List.mem_range.2 (hb a ha)
  exact (List.subperm_of_subset hn hsub).perm_of_length_le (by simp [hl])

theorem getD_map_perm (perm idx : List Nat) (a : Nat) (h : a < perm.length) :
    (permuted perm idx).getD a 0 = idx.getD (perm.getD a 0) 0 := by
  simp [permuted, List.getD_eq_getElem?_getD, h]

theorem sum_zip_perm (perm : List Nat) (f : Nat → Int) :
    ((List.range perm.length).map fun a => f (perm.getD a 0)).sum = (perm.map f).sum := by
  congr 1
  apply List.ext_getElem
  · simp
  · intro i h1 h2
    simp only [List.length_map, List.length_range] at h1
    simp [List.getElem?_eq_getElem h1]

/-- Replacing entry `a` of the strides changes the dot product by the difference at that axis. -/
theorem strideDot_set (i : Index) (s : Strides) (a : Nat) (x : Int) (hl : i.length = s.length) (ha : a < s.length) :
    strideDot i (s.set a x) = strideDot i s + ((i.getD a 0 : Nat) : Int) * (x - s.getD a 0) := by
  induction s generalizing i a with
  | nil => simp at ha
  | cons s ss ih =>
    cases i with
    | nil => simp at hl
    | cons y ys =>
      cases a with
      | zero => simp only [List.set_cons_zero, strideDot_cons, List.getD_cons_zero]; ring
      | succ a =>
        have := ih ys a (by simpa using hl) (by simpa using ha)
        simp only [List.set_cons_succ, strideDot_cons, this, List.getD_cons_succ]; ring

/-- Replacing coordinate `a` of the index. -/
theorem strideDot_setIdx (i : Index) (s : Strides) (a y : Nat) (hl : i.length = s.length) (ha : a < s.length) :
    strideDot (i.set a y) s = strideDot i s + ((y : Int) - ((i.getD a 0 : Nat) : Int)) * s.getD a 0 := by
  induction s generalizing i a with
  | nil => simp at ha
  | cons s ss ih =>
    cases i with
    | nil => simp at hl
    | cons x xs =>
      cases a with
      | zero => simp only [List.set_cons_zero, strideDot_cons, List.getD_cons_zero]; ring
      | succ a =>
        have := ih xs a (by simpa using hl) (by simpa using ha)
        simp only [List.set_cons_succ, strideDot_cons, this, List.getD_cons_succ]; ring

theorem mirror_length (dims sh idx : List Nat) : (mirror dims sh idx).length = idx.length := by simp [mirror]

theorem mirror_getD (dims sh idx : List Nat) (a : Nat) (ha : a < idx.length) :
    (mirror dims sh idx).getD a 0 = if a ∈ dims then sh.getD a 0 - 1 - idx.getD a 0 else idx.getD a 0 := by
  simp [mirror, List.getD_eq_getElem?_getD, ha]

theorem mirror_nil (sh idx : List Nat) : mirror [] sh idx = idx := by
  apply List.ext_getElem
  · simp [mirror]
  · intro i h1 h2
    simp [mirror, List.getElem?_eq_getElem h2]

theorem mirror_InB {dims sh idx : List Nat} (h : InB idx sh) : InB (mirror dims sh idx) sh := by
  have h' := (InB_iff _ _).1 h
  rw [InB_iff]
  refine ⟨by rw [mirror_length, h'.1], fun a ha => ?_⟩
  rw [mirror_getD _ _ _ _ (by omega)]
  have := h'.2 a ha
  split <;> omega

theorem mirror_mirror {dims sh idx : List Nat} (h : InB idx sh) : mirror dims sh (mirror dims sh idx) = idx := by
  have h' := (InB_iff _ _).1 h
  apply List.ext_getElem
  · simp [mirror]
  · intro i h1 h2
    have e := mirror_getD dims sh (mirror dims sh idx) i (by rw [mirror_length]; exact h2)
    rw [mirror_getD dims sh idx i h2] at e
    rw [List.getD_eq_getElem _ _ h1, List.getD_eq_getElem _ _ h2] at e
    rw [e]
    have := h'.2 i (by omega)
    rw [List.getD_eq_getElem _ _ h2] at this
    split <;> omega

theorem mirror_snoc {done sh idx : List Nat} {a : Nat} :
    mirror (a :: done) sh idx = (mirror done sh idx).set a (sh.getD a 0 - 1 - idx.getD a 0) := by
  apply List.ext_getElem
  · simp [mirror]
  · intro i h1 h2
    have hi : i < idx.length := by simpa [mirror] using h1
    rw [List.getElem_set]
    have e1 := mirror_getD (a :: done) sh idx i hi
    have e2 := mirror_getD done sh idx i hi
    rw [List.getD_eq_getElem _ _ h1] at e1
    rw [List.getD_eq_getElem _ _ (by rw [mirror_length]; exact hi)] at e2
    rw [e1, e2]
    by_cases h : a = i
    · subst h; simp
    · rw [if_neg h]
      have : (i ∈ a :: done) ↔ i ∈ done := by simp [Ne.symm h]
      simp only [this]

theorem reverse_fold {v : View} (hv : v.WF) (dims : List Nat) : ∀ (done : List Nat) (acc : View),
    (∀ a ∈ dims, a < v.shape.length) → dims.Nodup → (∀ a ∈ dims, a ∉ done) →
    acc.shape = v.shape → acc.strides.length = v.strides.length →
    (∀ a, a ∉ done → acc.strides.getD a 0 = v.strides.getD a 0) →
    (∀ idx, InB idx v.shape → acc.offset + strideDot idx acc.strides
      = v.offset + strideDot (mirror done v.shape idx) v.strides) →
    ∃ w, (dims.foldlM (init := acc) fun (acc : View) a => do
        let ns ← acc.strides[a]?
        let s ← v.strides[a]?
        let d ← v.shape[a]?
        return (⟨acc.shape, acc.strides.set a (ns * -1), acc.offset + s * ((d : Int) - 1)⟩ : View)) = some w ∧
      w.shape = v.shape ∧ w.strides.length = v.strides.length ∧
      ∀ idx, InB idx v.shape → w.offset + strideDot idx w.strides
        = v.offset + strideDot (mirror (dims.reverse ++ done) v.shape idx) v.strides := by
  induction dims with
  | nil =>
    intro done acc _ _ _ h1 h2 h3 h4
    exact ⟨acc, by simp, h1, h2, by simpa using h4⟩
  | cons a rest ih =>
    intro done acc hb hn hd h1 h2 h3 h4
    have ha : a < v.shape.length := hb a (by simp)
    have hvl : v.strides.length = v.shape.length := hv
    have ha2 : a < v.strides.length := by omega
    have ha1 : a < acc.strides.length := by omega
    have hna : a ∉ done := hd a (by simp)
    have hsa : acc.strides[a] = v.strides[a] := by
      have := h3 a hna
      rwa [List.getD_eq_getElem _ _ ha1, List.getD_eq_getElem _ _ ha2] at this
    obtain ⟨w, w1, w2, w3, w4⟩ := ih (a :: done)
      ⟨acc.shape, acc.strides.set a (acc.strides[a] * -1), acc.offset + v.strides[a] * ((v.shape[a] : Int) - 1)⟩
      (fun x hx => hb x (by simp [hx])) (List.nodup_cons.1 hn).2
      (fun x hx => by
        have : x ≠ a := by rintro rfl; exact (List.nodup_cons.1 hn).1 hx
        simp [this, hd x (by simp [hx])])
      h1 (by simpa using h2)
      (fun x hx => by
        have : x ≠ a := by rintro rfl; simp at hx
        have hx' : x ∉ done := by intro h; exact hx (by simp [h])
        rw [← h3 x hx']
        simp [List.getD_eq_getElem?_getD, Ne.symm this])
      (fun idx hi => by
        have hil := InB.length hi
        have hlt := ((InB_iff _ _).1 hi).2 a ha
        dsimp only
        rw [strideDot_set _ _ _ _ (by omega) ha1, mirror_snoc,
          strideDot_setIdx _ _ _ _ (by rw [mirror_length]; omega) ha2, mirror_getD _ _ _ _ (by omega), if_neg hna,
          List.getD_eq_getElem _ _ ha1, List.getD_eq_getElem _ _ ha2, hsa]
        rw [List.getD_eq_getElem _ _ ha] at hlt ⊢
        have := h4 idx hi
        have hsub : ((v.shape[a] - 1 - idx.getD a 0 : Nat) : Int) = (v.shape[a] : Int) - 1 - ((idx.getD a 0 : Nat) : Int) := by
          omega
        rw [hsub]
        linear_combination this)
    refine ⟨w, ?_, w2, w3, ?_⟩
    · rw [List.foldlM_cons]
      simp only [List.getElem?_eq_getElem ha1, List.getElem?_eq_getElem ha2, List.getElem?_eq_getElem ha,
        Option.bind_eq_bind, Option.bind_some, Option.pure_def]
      exact w1
    · simpa using w4

theorem mirror_congr {d d' sh idx : List Nat} (h : ∀ a, a ∈ d ↔ a ∈ d') : mirror d sh idx = mirror d' sh idx := by
  simp [mirror, h]

theorem reverse_spec {v : View} (hv : v.WF) {dims : List Nat} (hn : dims.Nodup)
    (hb : ∀ a ∈ dims, a < v.shape.length) :
    ∃ w, v.reverse dims = some w ∧ w.WF ∧ w.shape = v.shape ∧
      ∀ idx, InB idx v.shape → w.offset + strideDot idx w.strides
        = v.offset + strideDot (mirror dims v.shape idx) v.strides := by
  obtain ⟨w, h1, h2, h3, h4⟩ := reverse_fold hv dims [] v hb hn (by simp) rfl rfl (by simp)
    (fun idx _ => by rw [mirror_nil])
  refine ⟨w, h1, ?_, h2, fun idx hi => ?_⟩
  · unfold View.WF at hv ⊢; rw [h3, h2, hv]
  · rw [h4 idx hi, mirror_congr (d := dims.reverse ++ []) (d' := dims) (by simp)]

/-- Sum over source axes of (result coordinate of that axis) * stride. -/
def bsum (idx : Index) : List Nat → Strides → Int
  | a :: as, s :: ss => bsum idx as ss + ((idx.getD a 0 : Nat) : Int) * s
  | _, _ => 0

theorem bsum_bcast (idx : Index) (dims : List Nat) (sh : Shape) (st : Strides) (hl : dims.length = sh.length)
    (hs : st.length = sh.length) (h1 : ∀ a, a < sh.length → sh.getD a 0 = 1 → st.getD a 0 = 0) :
    bsum idx dims st = strideDot (bcastSrc dims sh idx) st := by
  induction dims generalizing sh st with
  | nil => simp [bsum, bcastSrc, strideDot]
  | cons a as ih =>
    cases sh with
    | nil => simp at hl
    | cons d ds =>
      cases st with
      | nil => simp at hs
      | cons s ss =>
        have hr := ih ds ss (by simpa using hl) (by simpa using hs)
          (fun x hx h => by simpa using h1 (x + 1) (by simpa using hx) (by simpa using h))
        simp only [bcastSrc] at hr
        simp only [bsum, bcastSrc, List.zipWith_cons_cons, strideDot_cons, hr]
        congr 1
        split
        · rename_i h
          have := h1 0 (by simp) (by simpa using h)
          simp only [List.getD_cons_zero] at this
          simp [this]
        · rfl

theorem strideDot_zero_strides (i : Index) (n : Nat) : strideDot i (List.replicate n (0 : Int)) = 0 := by
  induction n generalizing i with
  | zero => simp [strideDot]
  | succ n ih =>
    cases i with
    | nil => simp [strideDot]
    | cons x xs => simp [List.replicate_succ, strideDot_cons, ih]

theorem bsum_shift (idx : Index) (s : Strides) (k : Nat) :
    bsum idx ((List.range s.length).map (· + k)) s = strideDot (idx.drop k) s := by
  induction s generalizing k with
  | nil => simp [bsum, strideDot]
  | cons s ss ih =>
    rw [List.length_cons, List.range_succ_eq_map, List.map_cons, List.map_map]
    have : ((fun x => x + k) ∘ Nat.succ) = (· + (k + 1)) := by funext x; simp [Nat.add_assoc, Nat.add_comm 1]
    simp only [bsum, this, ih (k + 1)]
    cases hd : idx.drop k with
    | nil =>
      have h1 : idx.length ≤ k := by simpa using hd
      have h2 : idx.drop (k + 1) = [] := by simp; omega
      simp [h2, strideDot, List.getD_eq_getElem?_getD, h1]
    | cons x xs =>
      have h2 : idx.drop (k + 1) = xs := by
        have := congrArg List.tail hd
        simpa using this
      have h3 : idx.getD k 0 = x := by
        have h := congrArg (·[0]?) hd
        simp only [List.getElem?_drop, List.getElem?_cons_zero, Nat.add_zero] at h
        simp [List.getD_eq_getElem?_getD, h]
      rw [h2, Nat.zero_add, h3, strideDot_cons]

theorem strideDot_right (idx : Index) (s : Strides) (n : Nat) (hi : idx.length = n) :
    strideDot idx (List.replicate (n - s.length) 0 ++ s) =
      bsum idx ((List.range s.length).map (· + (n - s.length))) s := by
  rw [bsum_shift]
  conv_lhs => rw [← List.take_append_drop (n - s.length) idx]
  rw [strideDot_append (by simp [hi]), strideDot_zero_strides]
  ring

theorem bcastFold (dims : List Nat) (st : Strides) : ∀ (k : Nat) (acc : Strides), dims.Nodup →
    k + dims.length ≤ st.length → (∀ a ∈ dims, a < acc.length) → (∀ a ∈ dims, acc.getD a 0 = 0) →
    ∃ r, ((dims.zipIdx k).foldlM (init := acc) fun acc (x : Nat × Nat) => do
        let s ← st[x.2]?
        return acc.set x.1 s) = some r ∧ r.length = acc.length ∧
      ∀ idx : Index, idx.length = acc.length → strideDot idx r = strideDot idx acc + bsum idx dims (st.drop k) := by
  induction dims with
  | nil => intro k acc _ _ _ _; exact ⟨acc, by simp, rfl, fun idx _ => by simp [bsum]⟩
  | cons a as ih =>
    intro k acc hn hk hb hz
    have hk' : k < st.length := by simp at hk; omega
    have ha := hb a (by simp)
    obtain ⟨r, h1, h2, h3⟩ := ih (k + 1) (acc.set a st[k]) (List.nodup_cons.1 hn).2 (by simp at hk; omega)
      (fun x hx => by simpa using hb x (by simp [hx]))
      (fun x hx => by
        have : x ≠ a := by rintro rfl; exact (List.nodup_cons.1 hn).1 hx
        have hz' := hz x (by simp [hx])
        simpa [List.getD_eq_getElem?_getD, Ne.symm this] using hz')
    refine ⟨r, ?_, by simpa using h2, fun idx hi => ?_⟩
    · rw [List.zipIdx_cons, List.foldlM_cons]
      simp only [List.getElem?_eq_getElem hk', Option.bind_eq_bind, Option.bind_some, Option.pure_def]
      exact h1
    · rw [h3 idx (by simpa using hi), strideDot_set _ _ _ _ hi ha, hz a (by simp),
        List.drop_eq_getElem_cons hk']
      simp only [bsum]; ring

end Spu

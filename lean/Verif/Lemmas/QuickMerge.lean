import Verif.Lemmas.QuickRun
import Mathlib.Tactic.Linarith
set_option autoImplicit false
/-! # The merge stage: one network per interval, run side by side -/

namespace Spu.Lemmas.QuickSort
open Spu.Model.SortNet Spu.Model.QuickSort Spu.Model.Bits Spu.Props Spu.Lemmas.SortNet

variable {m w : ℕ}

/-! ### the layers -/

theorem stepsFrom_mem : ∀ (f e : ℕ), ∀ s ∈ stepsFrom f (2 ^ e), ∃ j ≤ e, s = 2 ^ j := by
  intro f
  induction f with
  | zero => intro e s h; simp [stepsFrom] at h
  | succ f ih =>
    intro e s h
    have hpos : 0 < 2 ^ e := by positivity
    rw [stepsFrom, if_pos hpos, List.mem_cons] at h
    rcases h with rfl | h
    · exact ⟨e, le_refl _, rfl⟩
    · cases e with
      | zero =>
        exfalso
        cases f <;> simp [stepsFrom] at h
      | succ e =>
        have e1 : (2 : ℕ) ^ (e + 1) / 2 = 2 ^ e := by
          rw [pow_succ]; exact Nat.mul_div_cancel _ (by omega)
        rw [e1] at h
        obtain ⟨j, hj, rfl⟩ := ih e s h
        exact ⟨j, by omega, rfl⟩

theorem stepsFrom_length : ∀ (f e : ℕ), (stepsFrom f (2 ^ e)).length ≤ e + 1 := by
  intro f
  induction f with
  | zero => intro e; simp [stepsFrom]
  | succ f ih =>
    intro e
    have hpos : 0 < 2 ^ e := by positivity
    rw [stepsFrom, if_pos hpos, List.length_cons]
    cases e with
    | zero => cases f <;> simp [stepsFrom]
    | succ e =>
      have e1 : (2 : ℕ) ^ (e + 1) / 2 = 2 ^ e := by
        rw [pow_succ]; exact Nat.mul_div_cancel _ (by omega)
      rw [e1]
      have := ih e
      omega

theorem gapsFrom_mem (n : ℕ) : ∀ (f e : ℕ), ∀ g ∈ gapsFrom n f (2 ^ e), ∃ j, g = 2 ^ j := by
  intro f
  induction f with
  | zero => intro e s h; simp [gapsFrom] at h
  | succ f ih =>
    intro e s h
    rw [gapsFrom] at h
    split at h
    · rcases List.mem_cons.1 h with rfl | h
      · exact ⟨e, rfl⟩
      · rw [show 2 ^ e + 2 ^ e = 2 ^ (e + 1) by rw [pow_succ]; ring] at h
        exact ih (e + 1) s h
    · simp at h

theorem gapsFrom_length (n : ℕ) : ∀ (f e : ℕ), e ≤ log2Ceil n →
    2 * ((gapsFrom n f (2 ^ e)).flatMap fun g => (steps g).map fun s => (g, s)).length
      + (e + 1) * e ≤ (log2Ceil n + 1) * log2Ceil n := by
  intro f
  induction f with
  | zero =>
    intro e he
    simp only [gapsFrom, List.flatMap_nil, List.length_nil]
    nlinarith
  | succ f ih =>
    intro e he
    rw [gapsFrom]
    split
    · rename_i hlt
      have hek : e < log2Ceil n := by
        by_contra h
        have h1 := Lemmas.le_pow_log2Ceil n
        have h2 : 2 ^ log2Ceil n ≤ 2 ^ e := Nat.pow_le_pow_right (by omega) (by omega)
        omega
      rw [show 2 ^ e + 2 ^ e = 2 ^ (e + 1) by rw [pow_succ]; ring, List.flatMap_cons,
        List.length_append, List.length_map]
      have h1 := ih (e + 1) hek
      have h2 : (steps (2 ^ e)).length ≤ e + 1 := stepsFrom_length _ e
      nlinarith
    · simp only [List.flatMap_nil, List.length_nil]
      nlinarith

theorem layers_mem {n : ℕ} {gs : ℕ × ℕ} (h : gs ∈ layers n) :
    0 < gs.2 ∧ (gs.2 = gs.1 ∨ ∃ t, 0 < t ∧ gs.1 = gs.2 * (2 * t)) := by
  unfold layers at h
  obtain ⟨g, hg, h⟩ := List.mem_flatMap.1 h
  obtain ⟨s, hs, rfl⟩ := List.mem_map.1 h
  obtain ⟨e, rfl⟩ := gapsFrom_mem n n 0 g (by simpa [gaps] using hg)
  obtain ⟨j, hj, rfl⟩ := stepsFrom_mem _ e s hs
  refine ⟨by positivity, ?_⟩
  by_cases h : j = e
  · exact Or.inl (by rw [h])
  · right
    refine ⟨2 ^ (e - j - 1), by positivity, ?_⟩
    show 2 ^ e = 2 ^ j * (2 * 2 ^ (e - j - 1))
    rw [← pow_succ', ← pow_add]
    congr 1
    omega

theorem log2Ceil_le {a b : ℕ} (h : a ≤ b) : log2Ceil a ≤ log2Ceil b := by
  by_contra hlt
  push Not at hlt
  have h1 := Lemmas.pow_lt_of_lt_log2Ceil hlt
  have h2 := Lemmas.le_pow_log2Ceil b
  omega

theorem layers_length (n : ℕ) : (layers n).length ≤ (log2Ceil n + 1) * log2Ceil n / 2 := by
  have h := gapsFrom_length n n 0 (Nat.zero_le _)
  unfold layers gaps
  simp only [pow_zero] at h
  omega

theorem depth_mono {a b : ℕ} (h : a ≤ b) :
    (log2Ceil a + 1) * log2Ceil a / 2 ≤ (log2Ceil b + 1) * log2Ceil b / 2 := by
  have := log2Ceil_le h
  apply Nat.div_le_div_right
  exact Nat.mul_le_mul (by omega) this

/-! ### one layer -/

theorem mergeLayer_ok {n : ℕ} (cmp : Row m w → Row m w → Bool) (c : Cols m w)
    (hlen : ∀ o, (c o).length = n) (P : List (ℤ × ℤ)) (hP : Compat P)
    (hn : ∀ ab ∈ P, (0 ≤ ab.1 ∧ ab.1 < (n : ℤ)) ∧ (0 ≤ ab.2 ∧ ab.2 < (n : ℤ))) :
    ∃ c', mergeLayer cmp c P = some c' ∧ (∀ o, (c' o).length = n) ∧ (rows n c').Perm (rows n c) ∧
      (∀ ab ∈ P, rz c' ab.1 = if cmp (rz c ab.1) (rz c ab.2) then rz c ab.1 else rz c ab.2) ∧
      (∀ ab ∈ P, rz c' ab.2 = if cmp (rz c ab.1) (rz c ab.2) then rz c ab.2 else rz c ab.1) ∧
      (∀ x, 0 ≤ x → x < (n : ℤ) → (∀ ab ∈ P, ab.1 ≠ x ∧ ab.2 ≠ x) → rz c' x = rz c x) := by
  unfold mergeLayer
  split
  · rename_i h
    subst h
    exact ⟨c, rfl, hlen, List.Perm.refl _, by simp, by simp, fun _ _ _ _ => rfl⟩
  rw [if_pos (fun o ab hab => by rw [hlen]; exact hn ab hab)]
  dsimp only
  set q : ℤ × ℤ → Bool := fun ab => cmp (rz c ab.1) (rz c ab.2) = false with hq
  obtain ⟨c', h1, h2, h3, h4⟩ := swap_ok c hlen (P.filter q) (hP.filter q)
    (fun ab hab => hn ab (List.mem_of_mem_filter hab))
  refine ⟨c', h1, h2, h4, fun ab hab => ?_, fun ab hab => ?_, fun x h0 hx hno => ?_⟩
  · rw [h3 _ (hn ab hab).1.1 (hn ab hab).1.2]
    cases hcmp : cmp (rz c ab.1) (rz c ab.2)
    · rw [swapFn_fst (hP.filter q) (List.mem_filter.2 ⟨hab, by simp [hq, hcmp]⟩)]
      simp
    · rw [swapFn_other]
      · simp
      · intro cd hcd
        obtain ⟨hcd, hcq⟩ := List.mem_filter.1 hcd
        constructor <;> intro e
        · have := hP.fst cd hcd ab hab e
          subst this
          simp [hq, hcmp] at hcq
        · have := hP.mix ab hab cd hcd e.symm
          subst this
          simp [hq, hcmp] at hcq
  · rw [h3 _ (hn ab hab).2.1 (hn ab hab).2.2]
    cases hcmp : cmp (rz c ab.1) (rz c ab.2)
    · rw [swapFn_snd (hP.filter q) (List.mem_filter.2 ⟨hab, by simp [hq, hcmp]⟩)]
      simp
    · rw [swapFn_other]
      · simp
      · intro cd hcd
        obtain ⟨hcd, hcq⟩ := List.mem_filter.1 hcd
        constructor <;> intro e
        · have := hP.mix cd hcd ab hab e
          subst this
          simp [hq, hcmp] at hcq
        · have := hP.snd cd hcd ab hab e
          subst this
          simp [hq, hcmp] at hcq
  · rw [h3 x h0 hx, swapFn_other]
    intro cd hcd
    exact hno cd (List.mem_of_mem_filter hcd)

/-- number of positions of an interval -/
def ivLen (iv : ℤ × ℤ) : ℕ := (iv.2 - iv.1 + 1).toNat

theorem mem_ivLayer {t : ℕ} {iv ab : ℤ × ℤ} (h : ab ∈ ivLayer t iv) :
    ¬ iv.2 - iv.1 ≤ 0 ∧ ∃ gs, (layers (ivLen iv))[t]? = some gs ∧
      ∃ a b, (a, b) ∈ layerPairs (ivLen iv) gs.1 gs.2 ∧ ab = ((a : ℤ) + iv.1, (b : ℤ) + iv.1) := by
  unfold ivLayer at h
  split at h
  · simp at h
  · rename_i hne
    refine ⟨hne, ?_⟩
    dsimp only at h
    cases hl : (layers (ivLen iv))[t]? with
    | none => unfold ivLen at hl; rw [hl] at h; simp at h
    | some gs =>
      refine ⟨gs, rfl, ?_⟩
      unfold ivLen at hl
      rw [hl] at h
      obtain ⟨⟨a, b⟩, hab, rfl⟩ := List.mem_map.1 h
      exact ⟨a, b, hab, rfl⟩

theorem mem_pairs_facts {n t : ℕ} {gs : ℕ × ℕ} (h : (layers n)[t]? = some gs) {a b : ℕ} :
    (a, b) ∈ layerPairs n gs.1 gs.2 ↔ b = a + gs.2 ∧ b < n ∧ IsL gs.1 gs.2 a := by
  have := layers_mem (List.mem_of_getElem? h)
  exact mem_layerPairs this.1 this.2

theorem ivLayer_pos {t : ℕ} {iv ab : ℤ × ℤ} (h : ab ∈ ivLayer t iv) :
    InI iv ab.1 ∧ InI iv ab.2 := by
  obtain ⟨h1, gs, h2, a, b, h3, rfl⟩ := mem_ivLayer h
  obtain ⟨e, h4, -⟩ := (mem_pairs_facts h2).1 h3
  unfold ivLen at h4
  refine ⟨⟨by show iv.1 ≤ _; omega, by show _ ≤ iv.2; omega⟩,
    ⟨by show iv.1 ≤ _; omega, by show _ ≤ iv.2; omega⟩⟩

theorem cell_compat {ivs : List (ℤ × ℤ)} (hdj : ivs.Pairwise Dj) (t : ℕ) :
    Compat (cell ivs t) := by
  have heq : ∀ a ∈ ivs, ∀ b ∈ ivs, ∀ x, InI a x → InI b x → a = b := fun a ha b hb x h1 h2 =>
    pairwise_dj_eq (f := fun a => a) hdj ha hb h1 h2
  refine ⟨fun ab ha cd hc e => ?_, fun ab ha cd hc e => ?_, fun ab ha cd hc e => ?_⟩ <;>
    obtain ⟨i, hi, ha⟩ := List.mem_flatMap.1 ha <;>
    obtain ⟨j, hj, hc⟩ := List.mem_flatMap.1 hc <;>
    have p1 := ivLayer_pos ha <;> have p2 := ivLayer_pos hc
  · have : i = j := heq i hi j hj _ p1.1 (by rw [e]; exact p2.1)
    subst this
    obtain ⟨-, gs, h2, a, b, h3, rfl⟩ := mem_ivLayer ha
    obtain ⟨-, gs', h2', a', b', h3', rfl⟩ := mem_ivLayer hc
    rw [h2] at h2'
    cases h2'
    obtain ⟨e1, -, -⟩ := (mem_pairs_facts h2).1 h3
    obtain ⟨e2, -, -⟩ := (mem_pairs_facts h2).1 h3'
    simp only at e
    have : a = a' := by omega
    subst this
    have : b = b' := by omega
    subst this
    rfl
  · have : i = j := heq i hi j hj _ p1.2 (by rw [e]; exact p2.2)
    subst this
    obtain ⟨-, gs, h2, a, b, h3, rfl⟩ := mem_ivLayer ha
    obtain ⟨-, gs', h2', a', b', h3', rfl⟩ := mem_ivLayer hc
    rw [h2] at h2'
    cases h2'
    obtain ⟨e1, -, -⟩ := (mem_pairs_facts h2).1 h3
    obtain ⟨e2, -, -⟩ := (mem_pairs_facts h2).1 h3'
    simp only at e
    have : b = b' := by omega
    subst this
    have : a = a' := by omega
    subst this
    rfl
  · have : i = j := heq i hi j hj _ p1.1 (by rw [e]; exact p2.2)
    subst this
    obtain ⟨-, gs, h2, a, b, h3, rfl⟩ := mem_ivLayer ha
    obtain ⟨-, gs', h2', a', b', h3', rfl⟩ := mem_ivLayer hc
    rw [h2] at h2'
    cases h2'
    obtain ⟨e1, -, l1⟩ := (mem_pairs_facts h2).1 h3
    obtain ⟨e2, -, l2⟩ := (mem_pairs_facts h2).1 h3'
    simp only at e
    have : a = a' + gs.2 := by omega
    rw [this] at l1
    exact absurd l1 (isL_disjoint (layers_mem (List.mem_of_getElem? h2)).1 l2)

/-! ### all layers -/

/-- the rows of one interval -/
def restr (c : Cols m w) (iv : ℤ × ℤ) : Cols m w :=
  fun o => (List.range (ivLen iv)).map fun i : ℕ => rz c (iv.1 + i) o

theorem rowAt_restr (c : Cols m w) (iv : ℤ × ℤ) {i : ℕ} (hi : i < ivLen iv) :
    rowAt (restr c iv) i = rz c (iv.1 + i) := by
  funext o
  simp [rowAt, restr, List.getD, hi]

/-- after `t` layers, every interval is where its own network is after `t` layers -/
structure MS (cmp : Row m w → Row m w → Bool) (n : ℕ) (ivs : List (ℤ × ℤ)) (c0 : Cols m w) (t : ℕ)
    (c : Cols m w) : Prop where
  net : NetState n c0 c
  out : ∀ x, 0 ≤ x → x < (n : ℤ) → (∀ iv ∈ ivs, ¬ iv.2 - iv.1 ≤ 0 → ¬ InI iv x) →
    rz c x = rz c0 x
  each : ∀ iv ∈ ivs, ¬ iv.2 - iv.1 ≤ 0 → ∃ d : Cols m w,
    ((layers (ivLen iv)).take t).foldlM (runLayer cmp (ivLen iv)) (restr c0 iv) = some d ∧
    (∀ o, (d o).length = ivLen iv) ∧ ∀ i : ℕ, i < ivLen iv → rowAt d i = rz c (iv.1 + i)

theorem mergeSteps_ok {n : ℕ} (cmp : Row m w → Row m w → Bool) {ivs : List (ℤ × ℤ)}
    (hr : ∀ iv ∈ ivs, 0 ≤ iv.1 ∧ iv.2 < (n : ℤ)) (hdj : ivs.Pairwise Dj) (c0 : Cols m w)
    (hlen : ∀ o, (c0 o).length = n) : ∀ t : ℕ,
    ∃ c, (List.range t).foldlM (fun c t => mergeLayer cmp c (cell ivs t)) c0 = some c ∧
      MS cmp n ivs c0 t c := by
  intro t
  induction t with
  | zero =>
    refine ⟨c0, rfl, ⟨hlen, List.Perm.refl _⟩, fun _ _ _ _ => rfl, fun iv _ _ => ?_⟩
    exact ⟨restr c0 iv, rfl, fun o => by simp [restr], fun i hi => rowAt_restr c0 iv hi⟩
  | succ t ih =>
    obtain ⟨c, h1, h2⟩ := ih
    have hcr : ∀ ab ∈ cell ivs t,
        (0 ≤ ab.1 ∧ ab.1 < (n : ℤ)) ∧ (0 ≤ ab.2 ∧ ab.2 < (n : ℤ)) := by
      intro ab hab
      obtain ⟨iv, hiv, hab⟩ := List.mem_flatMap.1 hab
      obtain ⟨⟨a1, a2⟩, ⟨a3, a4⟩⟩ := ivLayer_pos hab
      have := hr iv hiv
      omega
    obtain ⟨c', k1, k2, k3, k4, k5, k6⟩ := mergeLayer_ok cmp c h2.net.len (cell ivs t)
      (cell_compat hdj t) hcr
    refine ⟨c', ?_, ⟨k2, k3.trans h2.net.perm⟩, fun x h0 hx hno => ?_, fun iv hiv hne => ?_⟩
    · rw [List.range_succ, List.foldlM_append, h1]
      show (mergeLayer cmp c (cell ivs t)).bind some = _
      rw [k1]; rfl
    · rw [k6 x h0 hx, h2.out x h0 hx hno]
      intro ab hab
      obtain ⟨iv, hiv, hab⟩ := List.mem_flatMap.1 hab
      have hp := ivLayer_pos hab
      have hne := (mem_ivLayer hab).1
      constructor <;> rintro rfl
      · exact hno iv hiv hne hp.1
      · exact hno iv hiv hne hp.2
    · obtain ⟨d, d1, d2, d3⟩ := h2.each iv hiv hne
      have hrv := hr iv hiv
      -- pairs that touch the interval are its own
      have own : ∀ ab ∈ cell ivs t, InI iv ab.1 ∨ InI iv ab.2 → ab ∈ ivLayer t iv := by
        intro ab hab hin
        obtain ⟨jv, hjv, hab⟩ := List.mem_flatMap.1 hab
        have hp := ivLayer_pos hab
        have : iv = jv := by
          rcases hin with h | h
          · exact pairwise_dj_eq (f := fun a => a) hdj hiv hjv h hp.1
          · exact pairwise_dj_eq (f := fun a => a) hdj hiv hjv h hp.2
        rw [this]; exact hab
      cases hl : (layers (ivLen iv))[t]? with
      | none =>
        have hlt : (layers (ivLen iv)).length ≤ t := by
          rw [List.getElem?_eq_none_iff] at hl; exact hl
        refine ⟨d, ?_, d2, fun i hi => ?_⟩
        · rw [List.take_of_length_le (by omega)]
          rw [List.take_of_length_le hlt] at d1
          exact d1
        · have hii : InI iv (iv.1 + i) := by
            unfold ivLen at hi
            exact ⟨by show iv.1 ≤ _; omega, by show _ ≤ iv.2; omega⟩
          rw [d3 i hi, k6 (iv.1 + i) (by omega) (by have := hii.2; omega)]
          intro ab hab
          have hnone : ab ∉ ivLayer t iv := by
            intro h
            obtain ⟨-, gs, h2, -⟩ := mem_ivLayer h
            rw [hl] at h2; cases h2
          constructor <;> intro e
          · exact hnone (own ab hab (Or.inl (by rw [e]; exact hii)))
          · exact hnone (own ab hab (Or.inr (by rw [e]; exact hii)))
      | some gs =>
        have hgs := layers_mem (List.mem_of_getElem? hl)
        have hmem := fun a b => mem_pairs_facts hl (a := a) (b := b)
        obtain ⟨d', e1, e2, e3, e4, e5⟩ := cmpSwap_spec (n := ivLen iv) (s := gs.2) cmp d d2
          (layerPairs (ivLen iv) gs.1 gs.2) (fun ab h => ((hmem ab.1 ab.2).1 h).1)
          (fun ab h => ((hmem ab.1 ab.2).1 h).2.1)
          (fun ab h ab' h' e => by
            obtain ⟨-, -, hl⟩ := (hmem ab.1 ab.2).1 h
            obtain ⟨e', -, hl'⟩ := (hmem ab'.1 ab'.2).1 h'
            rw [e, e'] at hl
            exact isL_disjoint hgs.1 hl' hl)
        -- its pairs in the common table
        have hin : ∀ a b, (a, b) ∈ layerPairs (ivLen iv) gs.1 gs.2 →
            ((a : ℤ) + iv.1, (b : ℤ) + iv.1) ∈ cell ivs t := by
          intro a b hab
          refine List.mem_flatMap.2 ⟨iv, hiv, ?_⟩
          unfold ivLayer
          rw [if_neg hne]
          dsimp only
          unfold ivLen at hl hab
          rw [hl]
          exact List.mem_map.2 ⟨(a, b), hab, rfl⟩
        refine ⟨d', ?_, e2, fun i hi => ?_⟩
        · rw [List.take_add_one, hl, List.foldlM_append, d1]
          show (runLayer cmp (ivLen iv) d gs).bind some = _
          unfold runLayer
          rw [e1]; rfl
        · have hii : InI iv (iv.1 + i) := by
            unfold ivLen at hi
            exact ⟨by show iv.1 ≤ _; omega, by show _ ≤ iv.2; omega⟩
          by_cases hf : ∃ ab ∈ layerPairs (ivLen iv) gs.1 gs.2, ab.1 = i
          · obtain ⟨⟨a, b⟩, hab, rfl⟩ := hf
            have hb := ((hmem a b).1 hab).2.1
            have x1 := e3 _ hab
            have x2 := k4 _ (hin a b hab)
            simp only at x1 x2
            rw [x1]
            rw [show iv.1 + ((a : ℕ) : ℤ) = (a : ℤ) + iv.1 by omega, x2, d3 a hi, d3 b hb,
              show iv.1 + (a : ℤ) = (a : ℤ) + iv.1 by omega,
              show iv.1 + (b : ℤ) = (b : ℤ) + iv.1 by omega]
          · by_cases hs : ∃ ab ∈ layerPairs (ivLen iv) gs.1 gs.2, ab.2 = i
            · obtain ⟨⟨a, b⟩, hab, rfl⟩ := hs
              have ha : a < ivLen iv := by
                have := ((hmem a b).1 hab).1; have := ((hmem a b).1 hab).2.1; omega
              have x1 := e4 _ hab
              have x2 := k5 _ (hin a b hab)
              simp only at x1 x2 hi
              rw [x1]
              rw [show iv.1 + ((b : ℕ) : ℤ) = (b : ℤ) + iv.1 by omega, x2, d3 a ha, d3 b hi,
                show iv.1 + (a : ℤ) = (a : ℤ) + iv.1 by omega,
                show iv.1 + (b : ℤ) = (b : ℤ) + iv.1 by omega]
            · push Not at hf hs
              rw [e5 i hi fun ab hab => ⟨fun e => hf ab hab e.symm, fun e => hs ab hab e.symm⟩,
                d3 i hi, k6 (iv.1 + i) (by omega) (by have := hii.2; omega)]
              intro ab hab
              constructor <;> intro e
              · obtain ⟨-, gs', h2, a, b, h3, rfl⟩ :=
                  mem_ivLayer (own ab hab (Or.inl (by rw [e]; exact hii)))
                rw [hl] at h2; cases h2
                simp only at e
                exact hf _ h3 (by show a = i; omega)
              · obtain ⟨-, gs', h2, a, b, h3, rfl⟩ :=
                  mem_ivLayer (own ab hab (Or.inr (by rw [e]; exact hii)))
                rw [hl] at h2; cases h2
                simp only at e
                exact hs _ h3 (by show b = i; omega)

/-- **`mergesort`** finishes the sort. -/
theorem mergesort_ok {n : ℕ} {cmp : Row m w → Row m w → Bool} {D : Row m w → Prop}
    {le : Row m w → Row m w → Prop} (hc : Decides cmp D le) {c0 c : Cols m w}
    (hD : ∀ i < n, D (rowAt c0 i)) {ivs : List (ℤ × ℤ)} (hQ : QS le n c0 c ivs) :
    ∃ c', mergesort cmp n c ivs = some c' ∧ NetState n c0 c' ∧ Sep le n [] c' := by
  unfold mergesort
  dsimp only
  have hdep : ∀ iv ∈ ivs, ¬ iv.2 - iv.1 ≤ 0 →
      (layers (ivLen iv)).length ≤ (log2Ceil n + 1) * log2Ceil n / 2 := by
    intro iv hiv _
    refine le_trans (layers_length _) (depth_mono ?_)
    have := hQ.range iv hiv
    unfold ivLen; omega
  rw [if_pos (by intro iv hiv hne; exact hdep iv hiv hne)]
  obtain ⟨c', h1, h2⟩ := mergeSteps_ok cmp hQ.range hQ.dj c hQ.net.len
    ((log2Ceil n + 1) * log2Ceil n / 2)
  refine ⟨c', h1, ⟨h2.net.len, h2.net.perm.trans hQ.net.perm⟩, ?_⟩
  -- every interval is sorted
  have hsort : ∀ iv ∈ ivs, ¬ iv.2 - iv.1 ≤ 0 →
      (∀ x, InI iv x → ∃ y, InI iv y ∧ rz c' x = rz c y) ∧
      ∀ p q, iv.1 ≤ p → p < q → q ≤ iv.2 → le (rz c' p) (rz c' q) := by
    intro iv hiv hne
    obtain ⟨d, d1, d2, d3⟩ := h2.each iv hiv hne
    rw [List.take_of_length_le (hdep iv hiv hne)] at d1
    have hr := hQ.range iv hiv
    obtain ⟨d', e1, e2, e3, e4⟩ := c32_network_sorts (n := ivLen iv) hc (restr c iv)
      (fun o => by simp [restr]) (fun i hi => by
        rw [rowAt_restr c iv hi]
        unfold ivLen at hi
        exact mem_rz hQ.net hD _ (by omega) (by omega))
    have : d' = d := by
      have e1' : (layers (ivLen iv)).foldlM (runLayer cmp (ivLen iv)) (restr c iv) = some d' := e1
      rw [d1] at e1'
      exact (Option.some.inj e1').symm
    subst this
    have at_ : ∀ x, InI iv x → rz c' x = rowAt d' (x - iv.1).toNat ∧
        (x - iv.1).toNat < ivLen iv := by
      rintro x ⟨x1, x2⟩
      have hlt : (x - iv.1).toNat < ivLen iv := by unfold ivLen; omega
      refine ⟨?_, hlt⟩
      rw [d3 _ hlt]
      congr 1
      omega
    refine ⟨fun x hx => ?_, fun p q hp hpq hq => ?_⟩
    · obtain ⟨a1, a2⟩ := at_ x hx
      have hm : rowAt d' (x - iv.1).toNat ∈ rows (ivLen iv) d' := by
        rw [rows_eq_map]; exact List.mem_map.2 ⟨_, List.mem_range.2 a2, rfl⟩
      have hm := e3.subset hm
      rw [rows_eq_map] at hm
      obtain ⟨j, hj, ej⟩ := List.mem_map.1 hm
      rw [List.mem_range] at hj
      rw [rowAt_restr c iv hj] at ej
      refine ⟨iv.1 + j, ?_, by rw [a1, ← ej]⟩
      unfold ivLen at hj
      exact ⟨by show iv.1 ≤ _; omega, by show _ ≤ iv.2; omega⟩
    · obtain ⟨a1, a2⟩ := at_ p ⟨hp, by omega⟩
      obtain ⟨b1, b2⟩ := at_ q ⟨by omega, hq⟩
      rw [a1, b1]
      exact e4 _ _ (by omega) b2
  refine sep_step (c' := c') hQ.sep hQ.range hQ.dj (fun iv hiv x hx => ?_) (fun x h0 hx hno => ?_)
    (fun iv hiv p q hp hpq hq => ?_)
  · by_cases hne : iv.2 - iv.1 ≤ 0
    · have hr := hQ.range iv hiv
      refine ⟨x, hx, h2.out x (by have := hx.1; omega) (by have := hx.2; omega) ?_⟩
      intro jv hjv hj hxj
      have := pairwise_dj_eq (f := fun a => a) hQ.dj hiv hjv hx hxj
      rw [this] at hne
      exact hj hne
    · exact (hsort iv hiv hne).1 x hx
  · exact h2.out x h0 hx fun iv hiv _ => hno iv hiv
  · right
    exact (hsort iv hiv (by omega)).2 p q hp hpq hq

/-- **`QuickMergesort`** sorts. -/
theorem quickMergesort_ok {n : ℕ} {thres : ℤ} (h0 : 0 ≤ thres)
    {quick : ℕ → ℕ → Row m w → Row m w → Bool} {merge : Row m w → Row m w → Bool}
    {D : Row m w → Prop} {le : Row m w → Row m w → Prop} (hq : ∀ r k, Decides (quick r k) D le)
    (hm : Decides merge D le) (c : Cols m w) (hlen : ∀ o, (c o).length = n)
    (hD : ∀ i < n, D (rowAt c i)) :
    ∃ c', quickMergesort thres quick merge n c = some c' ∧ NetState n c c' ∧ Sep le n [] c' := by
  have hQ : QS le n c c [(0, (n : ℤ) - 1)] := by
    refine ⟨⟨hlen, List.Perm.refl _⟩, fun iv hiv => ?_, by simp, fun p q hp hpq hqn => Or.inl ?_⟩
    · rw [List.mem_singleton.1 hiv]; simp
    · exact ⟨_, List.mem_singleton.2 rfl, hp, by show q ≤ (n : ℤ) - 1; omega⟩
  obtain ⟨c1, ivs, h1, h2⟩ := quickRounds_ok h0 hq hD 1000 0 c _ hQ
  unfold quickMergesort
  rw [h1]
  show ∃ c', (if ivs = [] then some c1 else mergesort merge n c1 ivs) = _ ∧ _
  split
  · rename_i he
    subst he
    exact ⟨c1, rfl, h2.net, h2.sep⟩
  · exact mergesort_ok hm hD h2

end Spu.Lemmas.QuickSort

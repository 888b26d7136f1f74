import Verif.Model.QuickSort
import Verif.Props.SortNet
import Verif.Lemmas.Gates
set_option autoImplicit false
/-! # Exchanging disjoint pairs, and the two-pointer partition -/

namespace Spu.Lemmas.QuickSort
open Spu.Model.SortNet Spu.Model.QuickSort Spu.Model.Bits Spu.Props

/-- the exchange of the pairs of a list -/
def swapFn (P : List (ℤ × ℤ)) (x : ℤ) : ℤ :=
  match P.find? (fun ab => ab.1 == x) with
  | some ab => ab.2
  | none =>
    match P.find? (fun ab => ab.2 == x) with
    | some ab => ab.1
    | none => x

/-- every position belongs to at most one pair (a pair may consist of one position twice) -/
structure Compat (P : List (ℤ × ℤ)) : Prop where
  fst : ∀ ab ∈ P, ∀ cd ∈ P, ab.1 = cd.1 → ab = cd
  snd : ∀ ab ∈ P, ∀ cd ∈ P, ab.2 = cd.2 → ab = cd
  mix : ∀ ab ∈ P, ∀ cd ∈ P, ab.1 = cd.2 → ab = cd

theorem Compat.filter {P : List (ℤ × ℤ)} (h : Compat P) (q : ℤ × ℤ → Bool) :
    Compat (P.filter q) :=
  ⟨fun ab ha cd hc => h.fst ab (List.mem_of_mem_filter ha) cd (List.mem_of_mem_filter hc),
   fun ab ha cd hc => h.snd ab (List.mem_of_mem_filter ha) cd (List.mem_of_mem_filter hc),
   fun ab ha cd hc => h.mix ab (List.mem_of_mem_filter ha) cd (List.mem_of_mem_filter hc)⟩

theorem swapFn_fst {P : List (ℤ × ℤ)} (h : Compat P) {ab : ℤ × ℤ} (hab : ab ∈ P) :
    swapFn P ab.1 = ab.2 := by
  unfold swapFn
  cases hf : P.find? (fun cd => cd.1 == ab.1) with
  | none =>
    rw [List.find?_eq_none] at hf
    exact absurd (hf ab hab) (by simp)
  | some cd =>
    have h1 := List.mem_of_find?_eq_some hf
    have h2 := List.find?_some hf
    have : cd = ab := h.fst cd h1 ab hab (by simpa using h2)
    rw [this]

theorem swapFn_snd {P : List (ℤ × ℤ)} (h : Compat P) {ab : ℤ × ℤ} (hab : ab ∈ P) :
    swapFn P ab.2 = ab.1 := by
  unfold swapFn
  cases hf : P.find? (fun cd => cd.1 == ab.2) with
  | some cd =>
    have h1 := List.mem_of_find?_eq_some hf
    have h2 : cd.1 = ab.2 := by simpa using List.find?_some hf
    have : cd = ab := h.mix cd h1 ab hab h2
    subst this
    simp only
    exact h2.symm
  | none =>
    simp only
    cases hg : P.find? (fun cd => cd.2 == ab.2) with
    | none =>
      rw [List.find?_eq_none] at hg
      exact absurd (hg ab hab) (by simp)
    | some cd =>
      have h1 := List.mem_of_find?_eq_some hg
      have h2 := List.find?_some hg
      have : cd = ab := h.snd cd h1 ab hab (by simpa using h2)
      rw [this]

theorem swapFn_other {P : List (ℤ × ℤ)} {x : ℤ} (h : ∀ ab ∈ P, ab.1 ≠ x ∧ ab.2 ≠ x) :
    swapFn P x = x := by
  unfold swapFn
  have h1 : P.find? (fun ab => ab.1 == x) = none := by
    rw [List.find?_eq_none]
    intro ab hab
    simpa using (h ab hab).1
  have h2 : P.find? (fun ab => ab.2 == x) = none := by
    rw [List.find?_eq_none]
    intro ab hab
    simpa using (h ab hab).2
  rw [h1, h2]

/-- every position is the first or the second of a pair, or not touched -/
theorem swapFn_cases (P : List (ℤ × ℤ)) (x : ℤ) :
    (∃ ab ∈ P, ab.1 = x) ∨ (∃ ab ∈ P, ab.2 = x) ∨ ∀ ab ∈ P, ab.1 ≠ x ∧ ab.2 ≠ x := by
  by_cases h1 : ∃ ab ∈ P, ab.1 = x
  · exact Or.inl h1
  · by_cases h2 : ∃ ab ∈ P, ab.2 = x
    · exact Or.inr (Or.inl h2)
    · push Not at h1 h2
      exact Or.inr (Or.inr fun ab hab => ⟨h1 ab hab, h2 ab hab⟩)

theorem swapFn_invol {P : List (ℤ × ℤ)} (h : Compat P) (x : ℤ) : swapFn P (swapFn P x) = x := by
  rcases swapFn_cases P x with ⟨ab, hab, rfl⟩ | ⟨ab, hab, rfl⟩ | h3
  · rw [swapFn_fst h hab, swapFn_snd h hab]
  · rw [swapFn_snd h hab, swapFn_fst h hab]
  · rw [swapFn_other h3, swapFn_other h3]

theorem swapFn_range {P : List (ℤ × ℤ)} (h : Compat P) {n : ℤ}
    (hn : ∀ ab ∈ P, (0 ≤ ab.1 ∧ ab.1 < n) ∧ (0 ≤ ab.2 ∧ ab.2 < n)) {x : ℤ} (h0 : 0 ≤ x)
    (hx : x < n) : 0 ≤ swapFn P x ∧ swapFn P x < n := by
  rcases swapFn_cases P x with ⟨ab, hab, rfl⟩ | ⟨ab, hab, rfl⟩ | h3
  · rw [swapFn_fst h hab]; exact (hn ab hab).2
  · rw [swapFn_snd h hab]; exact (hn ab hab).1
  · rw [swapFn_other h3]; exact ⟨h0, hx⟩

theorem rows_eq_map {m w : ℕ} (n : ℕ) (c : Cols m w) :
    rows n c = (List.range n).map (rowAt c) := by
  apply List.ext_getElem
  · simp [rows]
  · intro i h1 h2
    simp [rows]

/-- rows moved by an involution of the positions are a permutation of the rows -/
theorem perm_of_invol {m w n : ℕ} {c c' : Cols m w} (σ : ℤ → ℤ) (hi : ∀ x, σ (σ x) = x)
    (hr : ∀ x, 0 ≤ x → x < (n : ℤ) → 0 ≤ σ x ∧ σ x < n)
    (h : ∀ x, 0 ≤ x → x < (n : ℤ) → rz c' x = rz c (σ x)) : (rows n c').Perm (rows n c) := by
  rw [rows_eq_map, rows_eq_map]
  have h1 : (List.range n).map (rowAt c') =
      ((List.range n).map fun i : ℕ => (σ (i : ℤ)).toNat).map (rowAt c) := by
    rw [List.map_map]
    apply List.map_congr_left
    intro i hi'
    have := h i (by omega) (by have := List.mem_range.1 hi'; omega)
    simpa [rz] using this
  rw [h1]
  apply List.Perm.map
  rw [List.perm_ext_iff_of_nodup]
  · intro a
    simp only [List.mem_map, List.mem_range]
    constructor
    · rintro ⟨i, hin, rfl⟩
      have := hr i (by omega) (by omega)
      omega
    · intro ha
      have := hr a (by omega) (by omega)
      refine ⟨(σ a).toNat, by omega, ?_⟩
      rw [Int.toNat_of_nonneg this.1, hi]
      omega
  · refine List.Nodup.map_on ?_ List.nodup_range
    intro i hi1 j hj1 he
    rw [List.mem_range] at hi1 hj1
    have a1 := hr i (by omega) (by omega)
    have a2 := hr j (by omega) (by omega)
    have : σ i = σ j := by omega
    have := congrArg σ this
    rw [hi, hi] at this
    omega
  · exact List.nodup_range

/-- **`Swap`** exchanges exactly the given pairs of rows. -/
theorem swap_ok {m w n : ℕ} (c : Cols m w) (hlen : ∀ o, (c o).length = n) (P : List (ℤ × ℤ))
    (hP : Compat P) (hn : ∀ ab ∈ P, (0 ≤ ab.1 ∧ ab.1 < (n : ℤ)) ∧ (0 ≤ ab.2 ∧ ab.2 < (n : ℤ))) :
    ∃ c', swap c (P.map Prod.fst) (P.map Prod.snd) = some c' ∧ (∀ o, (c' o).length = n) ∧
      (∀ x, 0 ≤ x → x < (n : ℤ) → rz c' x = rz c (swapFn P x)) ∧
      (rows n c').Perm (rows n c) := by
  suffices hs : ∃ c', swap c (P.map Prod.fst) (P.map Prod.snd) = some c' ∧
      (∀ o, (c' o).length = n) ∧
      (∀ x, 0 ≤ x → x < (n : ℤ) → rz c' x = rz c (swapFn P x)) by
    obtain ⟨c', h1, h2, h3⟩ := hs
    exact ⟨c', h1, h2, h3, perm_of_invol (swapFn P) (swapFn_invol hP)
      (fun x h0 hx => swapFn_range hP hn h0 hx) h3⟩
  unfold swap
  split
  · rename_i h
    refine ⟨c, rfl, hlen, fun x _ _ => ?_⟩
    rcases h with h | ⟨h1, h2, h3⟩
    · have : P = [] := by simpa using h
      subst this
      rfl
    · obtain ⟨ab, rfl⟩ := List.length_eq_one_iff.1 (by simpa using h1 : P.length = 1)
      have he : ab.1 = ab.2 := by simpa using h3
      rcases swapFn_cases [ab] x with ⟨cd, hcd, rfl⟩ | ⟨cd, hcd, rfl⟩ | h3
      · rw [swapFn_fst hP hcd]
        rw [List.mem_singleton.1 hcd, he]
      · rw [swapFn_snd hP hcd]
        rw [List.mem_singleton.1 hcd, he]
      · rw [swapFn_other h3]
  · rw [if_pos (by
      refine ⟨by simp, fun o i hi => ?_⟩
      rw [hlen]
      rw [List.mem_append, List.mem_map, List.mem_map] at hi
      rcases hi with ⟨ab, h, rfl⟩ | ⟨ab, h, rfl⟩
      · exact (hn ab h).1
      · exact (hn ab h).2)]
    refine ⟨_, rfl, ?_⟩
    set l := (P.map Prod.fst).map Int.toNat with hl
    set r := (P.map Prod.snd).map Int.toNat with hr
    set g : Fin m → ℕ → BitVec w := fun o i => (c o).getD (swapFn P (i : ℤ)).toNat 0 with hg
    have e1 : ∀ o, gather (c o) l = r.map (g o) := by
      intro o
      simp only [gather, hl, hr, List.map_map]
      apply List.map_congr_left
      intro ab hab
      have := (hn ab hab).2.1
      simp only [Function.comp, hg, Int.toNat_of_nonneg this, swapFn_snd hP hab]
    have e2 : ∀ o, gather (c o) r = l.map (g o) := by
      intro o
      simp only [gather, hl, hr, List.map_map]
      apply List.map_congr_left
      intro ab hab
      have := (hn ab hab).1.1
      simp only [Function.comp, hg, Int.toNat_of_nonneg this, swapFn_fst hP hab]
    simp only [e1, e2]
    have hlen2 : ∀ o, (scatter (scatter (c o) (r.map (g o)) r) (l.map (g o)) l).length = n := by
      intro o
      rw [(scatter_spec (g o) l _).1, (scatter_spec (g o) r _).1, hlen]
    refine ⟨hlen2, fun x h0 hx => ?_⟩
    funext o
    show (scatter (scatter (c o) (r.map (g o)) r) (l.map (g o)) l).getD x.toNat 0 = _
    rw [(scatter_spec (g o) l _).2 _ (by rw [(scatter_spec (g o) r _).1, hlen]; omega),
      (scatter_spec (g o) r _).2 _ (by rw [hlen]; omega)]
    have hgx : g o x.toNat = rz c (swapFn P x) o := by
      simp only [hg, rz, rowAt, Int.toNat_of_nonneg h0]
    split
    · exact hgx
    · split
      · exact hgx
      · rename_i h1 h2
        have : swapFn P x = x := by
          apply swapFn_other
          intro ab hab
          constructor
          · rintro rfl
            exact h1 (by rw [hl, List.map_map]; exact List.mem_map.2 ⟨ab, hab, rfl⟩)
          · rintro rfl
            exact h2 (by rw [hr, List.map_map]; exact List.mem_map.2 ⟨ab, hab, rfl⟩)
        rw [this]
        rfl

/-! ### the two pointers -/

theorem scanL_spec (pred : ℤ → Bool) (right : ℤ) : ∀ (f : ℕ) (left : ℤ), left ≤ right + 1 →
    (right - left + 1).toNat ≤ f →
    left ≤ scanL pred right f left ∧ scanL pred right f left ≤ right + 1 ∧
    (∀ x, left ≤ x → x < scanL pred right f left → pred x = false) ∧
    (scanL pred right f left ≤ right → pred (scanL pred right f left) = true) := by
  intro f
  induction f with
  | zero =>
    intro left h1 h2
    simp only [scanL]
    exact ⟨by omega, by omega, fun x h3 h4 => by omega, fun h => by omega⟩
  | succ f ih =>
    intro left h1 h2
    rw [scanL]
    split
    · rename_i h
      obtain ⟨a1, a2, a3, a4⟩ := ih (left + 1) (by omega) (by omega)
      refine ⟨by omega, a2, fun x h3 h4 => ?_, a4⟩
      by_cases hx : x = left
      · rw [hx]; exact h.2
      · exact a3 x (by omega) h4
    · rename_i h
      refine ⟨le_refl _, h1, fun x h3 h4 => by omega, fun h3 => ?_⟩
      by_contra h4
      exact h ⟨h3, by simpa using h4⟩

theorem scanR_spec (pred : ℤ → Bool) (left : ℤ) : ∀ (f : ℕ) (right : ℤ), left ≤ right + 1 →
    (right - left + 1).toNat ≤ f →
    scanR pred left f right ≤ right ∧ left ≤ scanR pred left f right + 1 ∧
    (∀ x, scanR pred left f right < x → x ≤ right → pred x = true) ∧
    (left ≤ scanR pred left f right → pred (scanR pred left f right) = false) := by
  intro f
  induction f with
  | zero =>
    intro right h1 h2
    simp only [scanR]
    exact ⟨by omega, by omega, fun x h3 h4 => by omega, fun h => by omega⟩
  | succ f ih =>
    intro right h1 h2
    rw [scanR]
    split
    · rename_i h
      obtain ⟨a1, a2, a3, a4⟩ := ih (right - 1) (by omega) (by omega)
      refine ⟨by omega, a2, fun x h3 h4 => ?_, a4⟩
      by_cases hx : x = right
      · rw [hx]; exact h.2
      · exact a3 x h3 (by omega)
    · rename_i h
      refine ⟨le_refl _, h1, fun x h3 h4 => by omega, fun h3 => ?_⟩
      by_contra h4
      exact h ⟨h3, by simpa using h4⟩

/-- what holds of the pointers and of the pairs collected so far -/
structure TP (pred : ℤ → Bool) (a b L R : ℤ) (acc : List (ℤ × ℤ)) : Prop where
  hL : a ≤ L
  hR : R ≤ b
  pos : ∀ ab ∈ acc, (a ≤ ab.1 ∧ ab.1 < L) ∧ (R < ab.2 ∧ ab.2 ≤ b)
  pr : ∀ ab ∈ acc, pred ab.1 = true ∧ pred ab.2 = false
  fst : ∀ ab ∈ acc, ∀ cd ∈ acc, ab.1 = cd.1 → ab = cd
  snd : ∀ ab ∈ acc, ∀ cd ∈ acc, ab.2 = cd.2 → ab = cd
  left : ∀ x, a ≤ x → x < L → (∀ ab ∈ acc, ab.1 ≠ x) → pred x = false
  right : ∀ x, R < x → x ≤ b → (∀ ab ∈ acc, ab.2 ≠ x) → pred x = true

theorem twoPtr_spec (pred : ℤ → Bool) (a b : ℤ) : ∀ (f : ℕ) (L R : ℤ) (acc : List (ℤ × ℤ)),
    L ≤ R + 1 → (R - L + 2).toNat ≤ f → TP pred a b L R acc →
    (twoPtr pred f L R acc).2.1 = (twoPtr pred f L R acc).2.2 + 1 ∧
    TP pred a b (twoPtr pred f L R acc).2.1 (twoPtr pred f L R acc).2.2
      (twoPtr pred f L R acc).1 := by
  intro f
  induction f with
  | zero => intro L R acc h1 h2; omega
  | succ f ih =>
    intro L R acc h1 h2 hT
    rw [twoPtr]
    obtain ⟨l1, l2, l3, l4⟩ := scanL_spec pred R (R - L + 1).toNat L h1 (le_refl _)
    generalize scanL pred R (R - L + 1).toNat L = L' at *
    obtain ⟨r1, r2, r3, r4⟩ := scanR_spec pred L' (R - L' + 1).toNat R l2 (le_refl _)
    generalize scanR pred L' (R - L' + 1).toNat R = R' at *
    have hT' : TP pred a b L' R' acc := by
      refine ⟨by have := hT.hL; omega, by have := hT.hR; omega, fun ab h => ?_, hT.pr, hT.fst,
        hT.snd, fun x h3 h4 h5 => ?_, fun x h3 h4 h5 => ?_⟩
      · have := hT.pos ab h; omega
      · by_cases hx : x < L
        · exact hT.left x h3 hx h5
        · exact l3 x (by omega) h4
      · by_cases hx : R < x
        · exact hT.right x hx h4 h5
        · exact r3 x h3 (by omega)
    split
    · exact ⟨by dsimp only; omega, hT'⟩
    · rename_i hlt
      have p1 : pred L' = true := l4 (by omega)
      have p2 : pred R' = false := r4 (by omega)
      have hne : L' ≠ R' := by rintro rfl; rw [p1] at p2; cases p2
      refine ih (L' + 1) (R' - 1) (acc ++ [(L', R')]) (by omega) (by omega) ?_
      have hb1 := hT'.hR
      have ha1 := hT'.hL
      refine ⟨by omega, by omega, fun ab h => ?_, fun ab h => ?_, fun ab h cd h' e => ?_,
        fun ab h cd h' e => ?_, fun x h3 h4 h5 => ?_, fun x h3 h4 h5 => ?_⟩
      · rcases List.mem_append.1 h with h | h
        · have := hT'.pos ab h; omega
        · rw [List.mem_singleton.1 h]; dsimp only; omega
      · rcases List.mem_append.1 h with h | h
        · exact hT'.pr ab h
        · rw [List.mem_singleton.1 h]; exact ⟨p1, p2⟩
      · rcases List.mem_append.1 h with h | h <;> rcases List.mem_append.1 h' with h' | h'
        · exact hT'.fst ab h cd h' e
        · rw [List.mem_singleton.1 h'] at e
          have := hT'.pos ab h; dsimp only at e; omega
        · rw [List.mem_singleton.1 h] at e
          have := hT'.pos cd h'; dsimp only at e; omega
        · rw [List.mem_singleton.1 h, List.mem_singleton.1 h']
      · rcases List.mem_append.1 h with h | h <;> rcases List.mem_append.1 h' with h' | h'
        · exact hT'.snd ab h cd h' e
        · rw [List.mem_singleton.1 h'] at e
          have := hT'.pos ab h; dsimp only at e; omega
        · rw [List.mem_singleton.1 h] at e
          have := hT'.pos cd h'; dsimp only at e; omega
        · rw [List.mem_singleton.1 h, List.mem_singleton.1 h']
      · by_cases hx : x = L'
        · exact absurd hx.symm (h5 (L', R') (by simp))
        · exact hT'.left x h3 (by omega) fun ab h => h5 ab (by simp [h])
      · by_cases hx : x = R'
        · exact absurd hx.symm (h5 (L', R') (by simp))
        · exact hT'.right x (by omega) h4 fun ab h => h5 ab (by simp [h])

/-- the loop started on a whole interval -/
theorem twoPtr_start (pred : ℤ → Bool) (a b : ℤ) (h : a ≤ b + 1) :
    ∃ (acc : List (ℤ × ℤ)) (R : ℤ), twoPtr pred (b - a + 2).toNat a b [] = (acc, R + 1, R) ∧
      a - 1 ≤ R ∧ TP pred a b (R + 1) R acc := by
  obtain ⟨h1, h2⟩ := twoPtr_spec pred a b (b - a + 2).toNat a b [] h (le_refl _)
    ⟨le_refl _, le_refl _, by simp, by simp, by simp, by simp, fun x h3 h4 => by omega,
      fun x h3 h4 => by omega⟩
  refine ⟨(twoPtr pred (b - a + 2).toNat a b []).1, (twoPtr pred (b - a + 2).toNat a b []).2.2,
    ?_, by have := h2.hL; omega, by rw [← h1]; exact h2⟩
  rw [← h1]

end Spu.Lemmas.QuickSort

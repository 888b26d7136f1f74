import Mathlib.Data.List.OfFn
import Mathlib.Data.List.FinRange
import Mathlib.GroupTheory.Perm.Basic
import Mathlib.Data.Fintype.Perm
import Mathlib.Tactic.LinearCombination
import Verif.Lemmas.SortNet
set_option autoImplicit false
/-!
# C32: the odd-even merge sort network sorts every length

`le` is any order relation that the comparator decides (strictly or not): the network is correct
for every such comparator, in particular it does not matter that equal elements are exchanged.
-/

namespace Spu.Props
open Spu.Model.SortNet Spu.Lemmas.SortNet

theorem mem_offsFrom {n s : ℕ} (x : ℕ) : ∀ fuel j,
    x ∈ offsFrom n s fuel j ↔ ∃ t < fuel, x = j + (s + s) * t ∧ x + s < n := by
  intro fuel
  induction fuel with
  | zero => intro j; simp [offsFrom]
  | succ fuel ih =>
    intro j
    rw [offsFrom]
    split
    · rename_i h
      rw [List.mem_cons, ih]
      constructor
      · rintro (rfl | ⟨t, ht, rfl, h2⟩)
        · exact ⟨0, by omega, by simp, h⟩
        · exact ⟨t + 1, by omega, by ring, h2⟩
      · rintro ⟨t, ht, hx, h2⟩
        cases t with
        | zero => left; simpa using hx
        | succ t => right; exact ⟨t, by omega, by rw [hx]; ring, h2⟩
    · rename_i h
      simp only [List.not_mem_nil, false_iff, not_exists, not_and]
      rintro t _ rfl h2
      omega

theorem mem_takeWhile_range' {n c : ℕ} (i : ℕ) : ∀ m k,
    i ∈ (List.range' k m).takeWhile (fun i => decide (i + c < n)) ↔
      k ≤ i ∧ i < k + m ∧ i + c < n := by
  intro m
  induction m with
  | zero => intro k; simp; omega
  | succ m ih =>
    intro k
    rw [List.range'_succ, List.takeWhile_cons]
    by_cases h : k + c < n
    · simp only [h, decide_true, if_true, List.mem_cons, ih]
      omega
    · simp only [h, decide_false, Bool.false_eq_true, if_false, List.not_mem_nil, false_iff]
      omega

theorem mem_pairsAt {n g s j a b : ℕ} :
    (a, b) ∈ pairsAt n g s j ↔
      ∃ i < s, a = i + j ∧ b = a + s ∧ b < n ∧ a / (g + g) = b / (g + g) := by
  unfold pairsAt
  rw [List.mem_filterMap]
  constructor
  · rintro ⟨i, hi, h⟩
    have hi' : i ∈ (List.range' 0 s).takeWhile (fun i => decide (i + (j + s) < n)) := by
      rw [← List.range_eq_range']
      simpa [Nat.add_assoc] using hi
    rw [mem_takeWhile_range'] at hi'
    split at h
    · rename_i hq
      simp only [Option.some.injEq, Prod.mk.injEq] at h
      obtain ⟨rfl, rfl⟩ := h
      exact ⟨i, by omega, rfl, rfl, by omega, hq⟩
    · exact absurd h (by simp)
  · rintro ⟨i, hi, rfl, rfl, hb, hq⟩
    refine ⟨i, ?_, by simp [hq]⟩
    have : i ∈ (List.range' 0 s).takeWhile (fun i => decide (i + (j + s) < n)) := by
      rw [mem_takeWhile_range']; omega
    rw [← List.range_eq_range'] at this
    simpa [Nat.add_assoc] using this

/-- the index pairs of a layer are exactly the comparators of Batcher's network that fit -/
theorem mem_layerPairs {n p s a b : ℕ} (hs : 0 < s) (hsp : s = p ∨ ∃ t, 0 < t ∧ p = s * (2 * t)) :
    (a, b) ∈ layerPairs n p s ↔ b = a + s ∧ b < n ∧ IsL p s a := by
  unfold layerPairs
  rw [List.mem_flatMap]
  have hp : 0 < p := by
    rcases hsp with rfl | ⟨t, ht, rfl⟩
    · exact hs
    · positivity
  have hle : s ≤ p := by
    rcases hsp with rfl | ⟨t, ht, rfl⟩
    · exact le_rfl
    · exact Nat.le_mul_of_pos_right _ (by omega)
  have hblock : ∀ a, a / (p + p) = (a + s) / (p + p) ↔ a % (2 * p) + s < 2 * p := by
    intro a
    rw [← two_mul]
    have ha := Nat.div_add_mod a (2 * p)
    have hm := Nat.mod_lt a (show 0 < 2 * p by omega)
    constructor
    · intro h
      by_contra hc
      have h1 : (a + s) / (2 * p) = a / (2 * p) + 1 := by
        rw [show a + s = 2 * p * (a / (2 * p) + 1) + (a % (2 * p) + s - 2 * p) by
            have : 2 * p * (a / (2 * p) + 1) = 2 * p * (a / (2 * p)) + 2 * p := by ring
            omega,
          Nat.mul_add_div (by omega),
          Nat.div_eq_of_lt (show a % (2 * p) + s - 2 * p < 2 * p by omega), Nat.add_zero]
      omega
    · intro h
      rw [show a + s = 2 * p * (a / (2 * p)) + (a % (2 * p) + s) by omega,
        Nat.mul_add_div (by omega), Nat.div_eq_of_lt h, Nat.add_zero]
  constructor
  · rintro ⟨j, hj, hab⟩
    rw [mem_offsFrom] at hj
    obtain ⟨t, ht, rfl, hjn⟩ := hj
    rw [mem_pairsAt] at hab
    obtain ⟨i, hi, ha, rfl, hb, hq⟩ := hab
    refine ⟨rfl, hb, (hblock a).1 hq, ?_⟩
    rcases hsp with rfl | ⟨u, hu, rfl⟩
    · exact Or.inl rfl
    · right
      have hmod : s % (s * (2 * u)) = s := Nat.mod_eq_of_lt (by
        have : s * 2 ≤ s * (2 * u) := Nat.mul_le_mul_left _ (by omega)
        omega)
      rw [ha, hmod, show i + (s + (s + s) * t) = s * (2 * t + 1) + i by ring,
        Nat.mul_add_div hs, Nat.div_eq_of_lt hi]
      omega
  · rintro ⟨rfl, hb, hl1, hl2⟩
    have hoff : ∀ t i, a = i + (s % p + (s + s) * t) → i < s → 
        ∃ j ∈ offsFrom n s n (s % p), (a, a + s) ∈ pairsAt n p s j := by
      intro t i ha hi
      refine ⟨s % p + (s + s) * t, ?_, ?_⟩
      · rw [mem_offsFrom]
        refine ⟨t, ?_, rfl, by omega⟩
        have : t ≤ (s + s) * t := Nat.le_mul_of_pos_left _ (by omega)
        omega
      · rw [mem_pairsAt]
        exact ⟨i, hi, ha, rfl, hb, (hblock a).2 hl1⟩
    by_cases hsp' : s = p
    · subst hsp'
      have ha := Nat.div_add_mod a (2 * s)
      refine hoff (a / (2 * s)) (a % (2 * s)) ?_ (by omega)
      rw [Nat.mod_self, ← two_mul]; omega
    · have hodd := hl2.resolve_left hsp'
      have hmod : s % p = s := Nat.mod_eq_of_lt (by omega)
      have ha := Nat.div_add_mod a s
      have hq : a / s = 2 * (a / s / 2) + 1 := by omega
      refine hoff (a / s / 2) (a % s) ?_ (Nat.mod_lt _ hs)
      rw [hmod]
      have : s * (a / s) = s + (s + s) * (a / s / 2) := by
        conv_lhs => rw [hq]
        ring
      omega

theorem isL_disjoint {p s a : ℕ} (hs : 0 < s) (h : IsL p s a) : ¬ IsL p s (a + s) := by
  rintro ⟨h1, h2⟩
  obtain ⟨h3, h4⟩ := h
  have hp : 0 < p := by omega
  by_cases hsp : s = p
  · subst hsp
    have ha := Nat.div_add_mod a (2 * s)
    have : (a + s) % (2 * s) = a % (2 * s) + s := by
      rw [show a + s = 2 * s * (a / (2 * s)) + (a % (2 * s) + s) by omega, Nat.mul_add_mod,
        Nat.mod_eq_of_lt h3]
    omega
  · have h2 := h2.resolve_left hsp
    have h4 := h4.resolve_left hsp
    rw [Nat.add_div_right _ hs] at h2
    omega

/-! ## one layer -/

theorem scatter_spec {w : ℕ} (g : ℕ → BitVec w) : ∀ (idx : List ℕ) (l : List (BitVec w)),
    (scatter l (idx.map g) idx).length = l.length ∧
    ∀ i, i < l.length →
      (scatter l (idx.map g) idx).getD i 0 = if i ∈ idx then g i else l.getD i 0 := by
  intro idx
  induction idx with
  | nil => intro l; simp [scatter]
  | cons a idx ih =>
    intro l
    have e : scatter l ((a :: idx).map g) (a :: idx) = scatter (l.set a (g a)) (idx.map g) idx := rfl
    rw [e]
    obtain ⟨h1, h2⟩ := ih (l.set a (g a))
    refine ⟨by rw [h1, List.length_set], fun i hi => ?_⟩
    rw [h2 i (by rw [List.length_set]; exact hi)]
    by_cases hi2 : i ∈ idx
    · simp [hi2]
    · rw [if_neg hi2]
      by_cases hia : i = a
      · subst hia
        simp [List.getD, hi]
      · have : i ∉ a :: idx := by simp [hia, hi2]
        rw [if_neg this]
        simp [List.getD, List.getElem?_set_ne (Ne.symm hia)]

theorem mux_eq {w : ℕ} (p : Bool) (a b : BitVec w) : mux p a b = if p then a else b := by
  cases p
  · simp [mux]
  · have h1 : BitVec.ofNat w (Bool.toNat true) = 1#w := rfl
    simp only [mux, h1, if_true]
    rw [BitVec.one_mul]
    exact add_sub_cancel b a

theorem rowAt_gather {m w : ℕ} (c : Cols m w) (idx : List ℕ) (k : ℕ) (hk : k < idx.length) :
    rowAt (fun o => gather (c o) idx) k = rowAt c idx[k] := by
  funext o
  simp [rowAt, gather, List.getD, hk]

/-- what `_cmp_swap` does to the rows -/
theorem cmpSwap_spec {m w n s : ℕ} (cmp : Row m w → Row m w → Bool) (c : Cols m w)
    (hlen : ∀ o, (c o).length = n) (P : List (ℕ × ℕ)) (hs : ∀ ab ∈ P, ab.2 = ab.1 + s)
    (hn : ∀ ab ∈ P, ab.2 < n) (hd : ∀ ab ∈ P, ∀ ab' ∈ P, ab.1 ≠ ab'.2) :
    ∃ c', cmpSwap cmp c (P.map Prod.fst) (P.map Prod.snd) = some c' ∧
      (∀ o, (c' o).length = n) ∧
      (∀ ab ∈ P, rowAt c' ab.1 =
        if cmp (rowAt c ab.1) (rowAt c ab.2) then rowAt c ab.1 else rowAt c ab.2) ∧
      (∀ ab ∈ P, rowAt c' ab.2 =
        if cmp (rowAt c ab.1) (rowAt c ab.2) then rowAt c ab.2 else rowAt c ab.1) ∧
      (∀ i < n, (∀ ab ∈ P, i ≠ ab.1 ∧ i ≠ ab.2) → rowAt c' i = rowAt c i) := by
  unfold cmpSwap
  rw [if_pos (by
    refine ⟨by simp, fun o i hi => ?_⟩
    rw [hlen]
    rw [List.mem_append, List.mem_map, List.mem_map] at hi
    rcases hi with ⟨ab, h, rfl⟩ | ⟨ab, h, rfl⟩
    · have := hs ab h; have := hn ab h; omega
    · exact hn ab h)]
  set G : Fin m → ℕ → BitVec w := fun o a =>
    if cmp (rowAt c a) (rowAt c (a + s)) then (c o).getD a 0 else (c o).getD (a + s) 0 with hG
  set L : Fin m → ℕ → BitVec w := fun o b =>
    if cmp (rowAt c (b - s)) (rowAt c b) then (c o).getD b 0 else (c o).getD (b - s) 0 with hL
  refine ⟨_, rfl, ?_⟩
  -- the written values
  have hgr : ∀ o, ((List.range (P.map Prod.fst).length).map fun k =>
      mux (((List.range (P.map Prod.fst).length).map fun k =>
          cmp (rowAt (fun o => gather (c o) (P.map Prod.fst)) k)
            (rowAt (fun o => gather (c o) (P.map Prod.snd)) k)).getD k false)
        ((gather (c o) (P.map Prod.fst)).getD k 0)
        ((gather (c o) (P.map Prod.snd)).getD k 0)) = (P.map Prod.fst).map (G o) := by
    intro o
    apply List.ext_getElem
    · simp
    · intro k h1 h2
      have hk : k < P.length := by simpa using h1
      have hsk := hs _ (List.getElem_mem hk)
      have e1 := rowAt_gather c (P.map Prod.fst) k (by simpa using hk)
      have e2 := rowAt_gather c (P.map Prod.snd) k (by simpa using hk)
      rw [List.getElem_map] at e1 e2
      simp only [List.getElem_map, List.getElem_range, List.getD, List.length_map,
        List.getElem?_map, List.getElem?_range hk, Option.map_some, Option.getD_some, e1, e2,
        List.getElem?_eq_getElem hk, mux_eq, hG, hsk]
      simp only [gather, List.getD, List.getElem?_map, List.getElem?_eq_getElem hk,
        Option.map_some, Option.getD_some, hsk]
  have hle : ∀ o, ((List.range (P.map Prod.fst).length).map fun k =>
      (gather (c o) (P.map Prod.fst)).getD k 0 + (gather (c o) (P.map Prod.snd)).getD k 0 -
        ((P.map Prod.fst).map (G o)).getD k 0) = (P.map Prod.snd).map (L o) := by
    intro o
    apply List.ext_getElem
    · simp
    · intro k h1 h2
      have hk : k < P.length := by simpa using h1
      have hsk := hs _ (List.getElem_mem hk)
      simp only [List.getElem_map, List.getElem_range, List.getD, List.length_map,
        List.getElem?_map, List.getElem?_range hk, Option.map_some, Option.getD_some, gather,
        List.getElem?_eq_getElem hk, hG, hL, hsk, Nat.add_sub_cancel]
      split
      · exact add_sub_cancel_left _ _
      · exact add_sub_cancel_right _ _
  simp only [hgr, hle]
  have hget : ∀ i < n, ∀ o, (scatter (scatter (c o) ((P.map Prod.fst).map (G o)) (P.map Prod.fst))
      ((P.map Prod.snd).map (L o)) (P.map Prod.snd)).getD i 0 =
      if i ∈ P.map Prod.snd then L o i else if i ∈ P.map Prod.fst then G o i else (c o).getD i 0 := by
    intro i hi o
    obtain ⟨a1, a2⟩ := scatter_spec (G o) (P.map Prod.fst) (c o)
    obtain ⟨b1, b2⟩ := scatter_spec (L o) (P.map Prod.snd)
      (scatter (c o) ((P.map Prod.fst).map (G o)) (P.map Prod.fst))
    rw [b2 i (by rw [a1, hlen]; exact hi), a2 i (by rw [hlen]; exact hi)]
  refine ⟨fun o => ?_, fun ab hab => ?_, fun ab hab => ?_, fun i hi hno => ?_⟩
  · obtain ⟨a1, -⟩ := scatter_spec (G o) (P.map Prod.fst) (c o)
    obtain ⟨b1, -⟩ := scatter_spec (L o) (P.map Prod.snd)
      (scatter (c o) ((P.map Prod.fst).map (G o)) (P.map Prod.fst))
    rw [b1, a1, hlen]
  · have h1 : ab.1 ∉ P.map Prod.snd := by
      intro h
      obtain ⟨ab', h', he⟩ := List.mem_map.1 h
      exact hd ab hab ab' h' he.symm
    have h2 : ab.1 ∈ P.map Prod.fst := List.mem_map_of_mem hab
    have hlt : ab.1 < n := by have := hs ab hab; have := hn ab hab; omega
    funext o
    show (_ : List _).getD _ _ = _
    rw [hget _ hlt, if_neg h1, if_pos h2, hs ab hab]
    simp only [hG]
    split <;> rfl
  · have h2 : ab.2 ∈ P.map Prod.snd := List.mem_map_of_mem hab
    funext o
    show (_ : List _).getD _ _ = _
    rw [hget _ (hn ab hab), if_pos h2, hs ab hab]
    simp only [hL, Nat.add_sub_cancel]
    split <;> rfl
  · have h1 : i ∉ P.map Prod.snd := by
      intro h
      obtain ⟨ab', h', he⟩ := List.mem_map.1 h
      exact (hno ab' h').2 he.symm
    have h2 : i ∉ P.map Prod.fst := by
      intro h
      obtain ⟨ab', h', he⟩ := List.mem_map.1 h
      exact (hno ab' h').1 he.symm
    funext o
    show (_ : List _).getD _ _ = _
    rw [hget _ hi, if_neg h1, if_neg h2]
    rfl

/-- the rows of the operands, in order -/
def rows {m w : ℕ} (n : ℕ) (c : Cols m w) : List (Row m w) :=
  List.ofFn fun i : Fin n => rowAt c i

/-- the 0/1 image of the operands under an upward closed set, padded with ones -/
noncomputable def img {m w : ℕ} (n : ℕ) (U : Row m w → Prop) (c : Cols m w) (i : ℕ) : Bool :=
  haveI := Classical.propDecidable
  if i < n then decide (U (rowAt c i)) else true

theorem img_true {m w n i : ℕ} {U : Row m w → Prop} {c : Cols m w} (h : i < n) :
    img n U c i = true ↔ U (rowAt c i) := by
  simp [img, h]

/-- `cmp` decides `le` on the rows that satisfy `D` -/
structure Decides {m w : ℕ} (cmp : Row m w → Row m w → Bool) (D : Row m w → Prop)
    (le : Row m w → Row m w → Prop) : Prop where
  yes : ∀ a b, D a → D b → cmp a b = true → le a b
  no : ∀ a b, D a → D b → cmp a b = false → le b a
  trans : ∀ a b c, le a b → le b c → le a c

theorem layer_ok {m w n p s : ℕ} (hs : 0 < s) (hsp : s = p ∨ ∃ t, 0 < t ∧ p = s * (2 * t))
    {cmp : Row m w → Row m w → Bool} {D : Row m w → Prop} {le : Row m w → Row m w → Prop}
    (hc : Decides cmp D le) (c : Cols m w) (hlen : ∀ o, (c o).length = n)
    (hD : ∀ i < n, D (rowAt c i)) :
    ∃ c', cmpSwap cmp c ((layerPairs n p s).map Prod.fst) ((layerPairs n p s).map Prod.snd)
        = some c' ∧
      (∀ o, (c' o).length = n) ∧ (rows n c').Perm (rows n c) ∧
      ∀ U : Row m w → Prop, (∀ a b, U a → le a b → U b) → Step01 p s (img n U c) (img n U c') := by
  have hmem : ∀ a b, (a, b) ∈ layerPairs n p s ↔ b = a + s ∧ b < n ∧ IsL p s a :=
    fun a b => mem_layerPairs hs hsp
  obtain ⟨c', h1, h2, h3, h4, h5⟩ := cmpSwap_spec (n := n) (s := s) cmp c hlen (layerPairs n p s)
    (fun ab h => ((hmem ab.1 ab.2).1 h).1) (fun ab h => ((hmem ab.1 ab.2).1 h).2.1)
    (fun ab h ab' h' e => by
      obtain ⟨-, -, hl⟩ := (hmem ab.1 ab.2).1 h
      obtain ⟨e', -, hl'⟩ := (hmem ab'.1 ab'.2).1 h'
      rw [e, e'] at hl
      exact isL_disjoint hs hl' hl)
  refine ⟨c', h1, h2, ?_, ?_⟩
  · -- permutation
    classical
    set W : ℕ → Prop := fun a => IsL p s a ∧ a + s < n ∧ cmp (rowAt c a) (rowAt c (a + s)) = false
      with hW
    have hdis : ∀ a, W a → ¬ W (a + s) := fun a h h' => isL_disjoint hs h.1 h'.1
    set σ : ℕ → ℕ := fun i => if W i then i + s else if s ≤ i ∧ W (i - s) then i - s else i with hσ
    have hσlt : ∀ i < n, σ i < n := by
      intro i hi
      simp only [hσ]
      split
      · rename_i h; exact h.2.1
      · split <;> omega
    have hσσ : ∀ i, σ (σ i) = i := by
      intro i
      simp only [hσ]
      by_cases h : W i
      · have := hdis i h
        rw [if_pos h, if_neg this, if_pos ⟨by omega, by rwa [Nat.add_sub_cancel]⟩]
        omega
      · rw [if_neg h]
        by_cases h' : s ≤ i ∧ W (i - s)
        · rw [if_pos h', if_pos h'.2]; omega
        · rw [if_neg h', if_neg h, if_neg h']
    have hrow : ∀ i < n, rowAt c' i = rowAt c (σ i) := by
      intro i hi
      by_cases hl : IsL p s i ∧ i + s < n
      · have hm := (hmem i (i + s)).2 ⟨rfl, hl.2, hl.1⟩
        have := h3 _ hm
        dsimp only at this
        rw [this]
        cases hcmp : cmp (rowAt c i) (rowAt c (i + s))
        · have : W i := ⟨hl.1, hl.2, hcmp⟩
          simp [hσ, this]
        · have hnw : ¬ W i := fun h => absurd h.2.2 (by simp [hcmp])
          have hnw' : ¬ (s ≤ i ∧ W (i - s)) := by
            rintro ⟨h, h'⟩
            have := isL_disjoint hs h'.1
            rw [Nat.sub_add_cancel h] at this
            exact this hl.1
          simp [hσ, hnw, hnw']
      · have hnw : ¬ W i := fun h => hl ⟨h.1, h.2.1⟩
        by_cases hr : s ≤ i ∧ IsL p s (i - s)
        · have hm := (hmem (i - s) i).2 ⟨by omega, hi, hr.2⟩
          have := h4 _ hm
          dsimp only at this
          rw [this]
          have e : i - s + s = i := by omega
          cases hcmp : cmp (rowAt c (i - s)) (rowAt c i)
          · have : W (i - s) := ⟨hr.2, by omega, by rw [e]; exact hcmp⟩
            simp [hσ, hnw, hr.1, this]
          · have : ¬ W (i - s) := fun h => by
              have := h.2.2; rw [e, hcmp] at this; exact absurd this (by simp)
            simp [hσ, hnw, this]
        · have hnw' : ¬ (s ≤ i ∧ W (i - s)) := fun h => hr ⟨h.1, h.2.1⟩
          rw [h5 i hi]
          · simp [hσ, hnw, hnw']
          · rintro ⟨a, b⟩ hab
            obtain ⟨e, hb, hl'⟩ := (hmem a b).1 hab
            dsimp only
            constructor
            · rintro rfl
              exact hl ⟨hl', by omega⟩
            · rintro rfl
              exact hr ⟨by omega, by rw [e, Nat.add_sub_cancel]; exact hl'⟩
    let τ : Equiv.Perm (Fin n) :=
      { toFun := fun i => ⟨σ i, hσlt i i.2⟩
        invFun := fun i => ⟨σ i, hσlt i i.2⟩
        left_inv := fun i => Fin.ext (hσσ i)
        right_inv := fun i => Fin.ext (hσσ i) }
    have e : rows n c' = List.ofFn ((fun i : Fin n => rowAt c i) ∘ τ) := by
      unfold rows
      congr 1
      funext i
      exact hrow i i.2
    rw [e]
    exact Equiv.Perm.ofFn_comp_perm τ _
  · -- 0/1 images
    intro U hU
    have key : ∀ a b, D a → D b → (U (if cmp a b then a else b) ↔ U a ∧ U b) ∧
        (U (if cmp a b then b else a) ↔ U a ∨ U b) := by
      intro a b ha hb
      cases h : cmp a b
      · have hle := hc.no a b ha hb h
        have := hU b a
        simp only [Bool.false_eq_true, if_false]
        constructor <;> constructor
        · intro h'; exact ⟨this h' hle, h'⟩
        · exact fun h' => h'.2
        · exact Or.inl
        · rintro (h' | h')
          · exact h'
          · exact this h' hle
      · have hle := hc.yes a b ha hb h
        have := hU a b
        simp only [if_true]
        constructor <;> constructor
        · intro h'; exact ⟨h', this h' hle⟩
        · exact fun h' => h'.1
        · exact Or.inr
        · rintro (h' | h')
          · exact this h' hle
          · exact h'
    refine ⟨fun a hl => ?_, fun a hl => ?_, fun i hl hr => ?_⟩
    · by_cases hb : a + s < n
      · have ha : a < n := by omega
        have := h3 _ ((hmem a (a + s)).2 ⟨rfl, hb, hl⟩)
        dsimp only at this
        rw [Bool.eq_iff_iff, Bool.and_eq_true, img_true ha, img_true ha, img_true hb, this,
          (key _ _ (hD a ha) (hD _ hb)).1]
      · have hb' : img n U c (a + s) = true := by simp [img, hb]
        rw [hb', Bool.and_true]
        by_cases ha : a < n
        · have : rowAt c' a = rowAt c a := by
            apply h5 a ha
            rintro ⟨x, y⟩ hxy
            obtain ⟨e, hy, hl'⟩ := (hmem x y).1 hxy
            dsimp only
            constructor
            · rintro rfl; omega
            · rintro rfl; rw [e] at hl; exact isL_disjoint hs hl' hl
          simp [img, ha, this]
        · simp [img, ha]
    · by_cases hb : a + s < n
      · have ha : a < n := by omega
        have := h4 _ ((hmem a (a + s)).2 ⟨rfl, hb, hl⟩)
        dsimp only at this
        rw [Bool.eq_iff_iff, Bool.or_eq_true, img_true hb, img_true ha, img_true hb, this,
          (key _ _ (hD a ha) (hD _ hb)).2]
      · simp [img, hb]
    · by_cases hi : i < n
      · have : rowAt c' i = rowAt c i := by
          apply h5 i hi
          rintro ⟨x, y⟩ hxy
          obtain ⟨e, hy, hl'⟩ := (hmem x y).1 hxy
          dsimp only
          constructor
          · rintro rfl; exact hl hl'
          · rintro rfl; exact hr x hl' e
        simp [img, hi, this]
      · simp [img, hi]

/-! ## the whole network -/

/-- one layer as a state transformer -/
def runLayer {m w : ℕ} (cmp : Row m w → Row m w → Bool) (n : ℕ) (c : Cols m w) (gs : ℕ × ℕ) :
    Option (Cols m w) :=
  cmpSwap cmp c ((layerPairs n gs.1 gs.2).map Prod.fst) ((layerPairs n gs.1 gs.2).map Prod.snd)

/-- what holds of every intermediate state -/
structure NetState {m w : ℕ} (n : ℕ) (c0 c : Cols m w) : Prop where
  len : ∀ o, (c o).length = n
  perm : (rows n c).Perm (rows n c0)

theorem NetState.dom {m w n : ℕ} {c0 c : Cols m w} {D : Row m w → Prop} (h : NetState n c0 c)
    (hD : ∀ i < n, D (rowAt c0 i)) : ∀ i < n, D (rowAt c i) := by
  intro i hi
  have : rowAt c i ∈ rows n c := by
    unfold rows
    rw [List.mem_ofFn]
    exact ⟨⟨i, hi⟩, rfl⟩
  have := h.perm.subset this
  unfold rows at this
  rw [List.mem_ofFn] at this
  obtain ⟨j, hj⟩ := this
  rw [← hj]
  exact hD j j.2

theorem steps_ok {m w n p : ℕ} {cmp : Row m w → Row m w → Bool} {D : Row m w → Prop}
    {le : Row m w → Row m w → Prop} (hc : Decides cmp D le) {c0 : Cols m w}
    (hD : ∀ i < n, D (rowAt c0 i)) : ∀ e fuel, e < fuel → (∃ t, 0 < t ∧ p = 2 ^ e * (2 * t)) →
    ∀ c, NetState n c0 c →
      ∃ c', ((stepsFrom fuel (2 ^ e)).map fun s => (p, s)).foldlM (runLayer cmp n) c = some c' ∧
        NetState n c0 c' ∧
        ∀ U : Row m w → Prop, (∀ a b, U a → le a b → U b) →
          Inv p (2 * 2 ^ e) (img n U c) → Inv p 1 (img n U c') := by
  intro e
  induction e with
  | zero =>
    intro fuel hf hp c hs
    obtain ⟨fuel, rfl⟩ : ∃ f, fuel = f + 1 := ⟨fuel - 1, by omega⟩
    obtain ⟨c', h1, h2, h3, h4⟩ := layer_ok (n := n) (p := p) (s := 1) (by omega)
      (Or.inr (by simpa using hp)) hc c hs.len (hs.dom hD)
    refine ⟨c', ?_, ⟨h2, h3.trans hs.perm⟩, fun U hU hi => ?_⟩
    · have : stepsFrom (fuel + 1) (2 ^ 0) = [1] := by
        cases fuel <;> simp [stepsFrom]
      rw [this]
      show (runLayer cmp n c (p, 1)).bind some = _
      unfold runLayer
      rw [h1]; rfl
    · obtain ⟨t, ht, hpt⟩ := hp
      exact inv_step (s := 1) (by omega) ht (by simpa using hpt) (by simpa using hi) (h4 U hU)
  | succ e ih =>
    intro fuel hf hp c hs
    obtain ⟨fuel, rfl⟩ : ∃ f, fuel = f + 1 := ⟨fuel - 1, by omega⟩
    obtain ⟨t, ht, hpt⟩ := hp
    have hpos : 0 < 2 ^ (e + 1) := by positivity
    obtain ⟨c1, h1, h2, h3, h4⟩ := layer_ok (n := n) (p := p) (s := 2 ^ (e + 1)) hpos
      (Or.inr ⟨t, ht, hpt⟩) hc c hs.len (hs.dom hD)
    have hs1 : NetState n c0 c1 := ⟨h2, h3.trans hs.perm⟩
    obtain ⟨c', k1, k2, k3⟩ := ih fuel (by omega)
      ⟨2 * t, by omega, by rw [hpt, pow_succ]; ring⟩ c1 hs1
    refine ⟨c', ?_, k2, fun U hU hi => ?_⟩
    · rw [stepsFrom, if_pos hpos, List.map_cons, List.foldlM_cons]
      have e1 : (2 : ℕ) ^ (e + 1) / 2 = 2 ^ e := by
        rw [pow_succ]; exact Nat.mul_div_cancel _ (by omega)
      rw [e1]
      show (runLayer cmp n c (p, 2 ^ (e + 1))).bind _ = _
      have : runLayer cmp n c (p, 2 ^ (e + 1)) = some c1 := h1
      rw [this]
      exact k1
    · apply k3 U hU
      have e1 : 2 * 2 ^ e = 2 ^ (e + 1) := by rw [pow_succ]; ring
      rw [e1]
      exact inv_step hpos ht hpt hi (h4 U hU)

theorem stage_ok {m w n : ℕ} {cmp : Row m w → Row m w → Bool} {D : Row m w → Prop}
    {le : Row m w → Row m w → Prop} (hc : Decides cmp D le) {c0 : Cols m w}
    (hD : ∀ i < n, D (rowAt c0 i)) (e : ℕ) (c : Cols m w) (hs : NetState n c0 c) :
      ∃ c', ((steps (2 ^ e)).map fun s => (2 ^ e, s)).foldlM (runLayer cmp n) c = some c' ∧
        NetState n c0 c' ∧
        ∀ U : Row m w → Prop, (∀ a b, U a → le a b → U b) →
          Blocks (2 ^ e) (img n U c) → Blocks (2 ^ (e + 1)) (img n U c') := by
  have hpos : 0 < 2 ^ e := by positivity
  obtain ⟨c1, h1, h2, h3, h4⟩ := layer_ok (n := n) (p := 2 ^ e) (s := 2 ^ e) hpos
    (Or.inl rfl) hc c hs.len (hs.dom hD)
  have hs1 : NetState n c0 c1 := ⟨h2, h3.trans hs.perm⟩
  have hpow : 2 ^ (e + 1) = 2 * 2 ^ e := by rw [pow_succ]; ring
  have hrun : runLayer cmp n c (2 ^ e, 2 ^ e) = some c1 := h1
  unfold steps
  rw [stepsFrom, if_pos hpos, List.map_cons, List.foldlM_cons, hrun]
  cases e with
  | zero =>
    refine ⟨c1, ?_, hs1, fun U hU hb => ?_⟩
    · simp [stepsFrom]
    · rw [hpow]
      exact Lemmas.SortNet.inv_one (blocks_merge_first hpos hb (h4 U hU))
  | succ e =>
    have e1 : (2 : ℕ) ^ (e + 1) / 2 = 2 ^ e := by
      rw [pow_succ]; exact Nat.mul_div_cancel _ (by omega)
    have he : e < 2 ^ (e + 1) := lt_of_lt_of_le Nat.lt_two_pow_self
      (Nat.pow_le_pow_right (by omega) (by omega))
    obtain ⟨c', k1, k2, k3⟩ := steps_ok (p := 2 ^ (e + 1)) hc hD e (2 ^ (e + 1)) he
      ⟨1, by omega, by rw [pow_succ]⟩ c1 hs1
    refine ⟨c', ?_, k2, fun U hU hb => ?_⟩
    · rw [e1]; exact k1
    · rw [hpow]
      apply Lemmas.SortNet.inv_one
      apply k3 U hU
      have := blocks_merge_first hpos hb (h4 U hU)
      rwa [pow_succ, Nat.mul_comm (2 ^ e) 2] at this ⊢

theorem gaps_ok {m w n : ℕ} {cmp : Row m w → Row m w → Bool} {D : Row m w → Prop}
    {le : Row m w → Row m w → Prop} (hc : Decides cmp D le) {c0 : Cols m w}
    (hD : ∀ i < n, D (rowAt c0 i)) : ∀ fuel e, n ≤ 2 ^ e + fuel → ∀ c, NetState n c0 c →
      ∃ c', ((gapsFrom n fuel (2 ^ e)).flatMap fun g => (steps g).map fun s => (g, s)).foldlM
          (runLayer cmp n) c = some c' ∧
        NetState n c0 c' ∧
        ∀ U : Row m w → Prop, (∀ a b, U a → le a b → U b) →
          Blocks (2 ^ e) (img n U c) → ∃ P, n ≤ P ∧ Blocks P (img n U c') := by
  intro fuel
  induction fuel with
  | zero =>
    intro e he c hs
    exact ⟨c, rfl, hs, fun U _ hb => ⟨2 ^ e, by omega, hb⟩⟩
  | succ fuel ih =>
    intro e he c hs
    rw [gapsFrom]
    split
    · obtain ⟨c1, h1, h2, h3⟩ := stage_ok hc hD e c hs
      have hpow : 2 ^ (e + 1) = 2 ^ e + 2 ^ e := by rw [pow_succ]; ring
      have hpos : 0 < 2 ^ e := by positivity
      obtain ⟨c', k1, k2, k3⟩ := ih (e + 1) (by omega) c1 h2
      refine ⟨c', ?_, k2, fun U hU hb => k3 U hU (h3 U hU hb)⟩
      rw [List.flatMap_cons, List.foldlM_append, h1, ← hpow]
      exact k1
    · exact ⟨c, rfl, hs, fun U _ hb => ⟨2 ^ e, by omega, hb⟩⟩

/-- **C32**: for every number of operands, every length `n` and every comparator that decides an
order on the rows at hand, the network finishes, its result has the same rows, and the rows are in
order. -/
theorem c32_network_sorts {m w n : ℕ} {cmp : Row m w → Row m w → Bool} {D : Row m w → Prop}
    {le : Row m w → Row m w → Prop} (hc : Decides cmp D le) (c : Cols m w)
    (hlen : ∀ o, (c o).length = n) (hD : ∀ i < n, D (rowAt c i)) :
    ∃ c', oddEvenMergeSort cmp n c = some c' ∧ (∀ o, (c' o).length = n) ∧
      (rows n c').Perm (rows n c) ∧
      ∀ i j, i < j → j < n → le (rowAt c' i) (rowAt c' j) := by
  obtain ⟨c', h1, h2, h3⟩ := gaps_ok hc hD n 0 (by omega) c ⟨hlen, List.Perm.refl _⟩
  refine ⟨c', h1, h2.len, h2.perm, fun i j hij hj => ?_⟩
  have hrefl : le (rowAt c' i) (rowAt c' i) := by
    have hd := h2.dom hD i (by omega)
    cases h : cmp (rowAt c' i) (rowAt c' i)
    · exact hc.no _ _ hd hd h
    · exact hc.yes _ _ hd hd h
  obtain ⟨P, hP, hb⟩ := h3 (fun e => le (rowAt c' i) e) (fun a b h1 h2 => hc.trans _ _ _ h1 h2) (by
    intro q
    refine ⟨if img n (fun e => le (rowAt c' i) e) c (1 * q) then 0 else 1, by split <;> simp, ?_⟩
    intro k hk
    have : k = 0 := by omega
    subst this
    by_cases h : img n (fun e => le (rowAt c' i) e) c (1 * q) = true
    · simp only [pow_zero, Nat.add_zero, h, if_true]; simp
    · simp only [pow_zero, Nat.add_zero, h, if_false]; simp)
  obtain ⟨z, -, hz⟩ := hb 0
  have hi := hz i (by omega)
  have hj' := hz j (by omega)
  simp only [Nat.mul_zero, Nat.zero_add, img, show i < n by omega, hj, if_true, hrefl,
    decide_true] at hi hj'
  have : z ≤ i := by simpa using hi.symm
  have h : z ≤ j := by omega
  simpa [h] using hj'

/-! ## the comparator built from keys -/

/-- signed value of key `k` of a row -/
def keyInt {m w : ℕ} (a : Row m w) (k : ℕ) : ℤ := (valAt a k).toInt

/-- `x` comes strictly before `y` in direction `d` -/
def Before : Dir → ℤ → ℤ → Prop
  | .ascending, x, y => x < y
  | .descending, x, y => y < x

/-- the keys of `a` come strictly before the keys of `b`: at the first key where they differ, the
key of `a` is smaller (larger for descending sorts). -/
def KeysBefore {m w : ℕ} (d : Dir) (numKeys : ℕ) (a b : Row m w) : Prop :=
  ∃ k < numKeys, (∀ j < k, keyInt a j = keyInt b j) ∧
    Before d (keyInt a k) (keyInt b k)

/-- the keys are in the range for which the ring comparison is exact -/
def InRange {m w : ℕ} (numKeys : ℕ) (a : Row m w) : Prop :=
  ∀ k < numKeys, -(2 ^ (w - 2) : ℤ) ≤ keyInt a k ∧ keyInt a k < 2 ^ (w - 2)

theorem ringLess_iff {w : ℕ} (hw : 2 ≤ w) (x y : BitVec w)
    (hx : -(2 ^ (w - 2) : ℤ) ≤ x.toInt ∧ x.toInt < 2 ^ (w - 2))
    (hy : -(2 ^ (w - 2) : ℤ) ≤ y.toInt ∧ y.toInt < 2 ^ (w - 2)) :
    ringLess x y = true ↔ x.toInt < y.toInt := by
  obtain ⟨v, rfl⟩ : ∃ v, w = v + 2 := ⟨w - 2, by omega⟩
  have h1 : v + 2 - 2 = v := by omega
  rw [h1] at hx hy
  unfold ringLess
  rw [BitVec.msb_eq_toInt, decide_eq_true_iff, BitVec.toInt_sub, Int.bmod_eq_of_le]
  · omega
  · have : ((2 ^ (v + 2) : ℕ) : ℤ) = 4 * 2 ^ v := by push_cast; ring
    rw [this]; omega
  · have : ((2 ^ (v + 2) : ℕ) : ℤ) = 4 * 2 ^ v := by push_cast; ring
    rw [this]; omega

theorem cmpKeysLoop_spec {m w : ℕ} (d : Dir) (a b : Row m w) : ∀ cnt k pre res,
    cmpKeysLoop d a b (List.range' (k + 1) cnt) pre res = true ↔
      res = true ∨ (pre = true ∧ ∃ j, k < j ∧ j ≤ k + cnt ∧
        (∀ i, k ≤ i → i < j → valAt a i = valAt b i) ∧
        scalarCmp d (valAt a j) (valAt b j) = true) := by
  intro cnt
  induction cnt with
  | zero =>
    intro k pre res
    simp only [List.range'_zero, cmpKeysLoop, Nat.add_zero]
    constructor
    · exact Or.inl
    · rintro (h | ⟨-, j, h1, h2, -⟩)
      · exact h
      · omega
  | succ cnt ih =>
    intro k pre res
    rw [List.range'_succ, cmpKeysLoop]
    simp only [Nat.add_sub_cancel]
    rw [ih (k + 1)]
    simp only [Bool.or_eq_true, Bool.and_eq_true, beq_iff_eq]
    constructor
    · rintro ((h | ⟨⟨h1, h2⟩, h3⟩) | ⟨⟨h1, h2⟩, j, h3, h4, h5, h6⟩)
      · exact Or.inl h
      · refine Or.inr ⟨h1, k + 1, by omega, by omega, fun i hi hi' => ?_, h3⟩
        have : i = k := by omega
        rw [this]; exact h2
      · refine Or.inr ⟨h1, j, by omega, by omega, fun i hi hi' => ?_, h6⟩
        by_cases hk : i = k
        · rw [hk]; exact h2
        · exact h5 i (by omega) hi'
    · rintro (h | ⟨h1, j, h2, h3, h4, h5⟩)
      · exact Or.inl (Or.inl h)
      · by_cases hj : j = k + 1
        · subst hj
          exact Or.inl (Or.inr ⟨⟨h1, h4 k (by omega) (by omega)⟩, h5⟩)
        · exact Or.inr ⟨⟨h1, h4 k (by omega) (by omega)⟩, j, by omega, by omega,
            fun i hi hi' => h4 i (by omega) hi', h5⟩

theorem cmpFunc_iff {m w : ℕ} (hw : 2 ≤ w) (d : Dir) (numKeys : ℕ) (hk : 0 < numKeys)
    (a b : Row m w) (ha : InRange numKeys a) (hb : InRange numKeys b) :
    cmpFunc d numKeys a b = true ↔ KeysBefore d numKeys a b := by
  unfold cmpFunc KeysBefore
  rw [cmpKeysLoop_spec d a b (numKeys - 1) 0]
  have hval : ∀ i, valAt a i = valAt b i ↔ keyInt a i = keyInt b i :=
    fun i => (BitVec.toInt_inj).symm
  have hs : ∀ k < numKeys, scalarCmp d (valAt a k) (valAt b k) = true ↔
      Before d (keyInt a k) (keyInt b k) := by
    intro k hk
    cases d
    · exact ringLess_iff hw _ _ (ha k hk) (hb k hk)
    · exact ringLess_iff hw _ _ (hb k hk) (ha k hk)
  constructor
  · rintro (h | ⟨-, j, h1, h2, h3, h4⟩)
    · exact ⟨0, hk, fun j hj => absurd hj (by omega), (hs 0 hk).1 h⟩
    · exact ⟨j, by omega, fun i hi => (hval i).1 (h3 i (by omega) hi), (hs j (by omega)).1 h4⟩
  · rintro ⟨k, hkn, h1, h2⟩
    by_cases h0 : k = 0
    · subst h0; exact Or.inl ((hs 0 hk).2 h2)
    · exact Or.inr ⟨rfl, k, by omega, by omega, fun i _ hi => (hval i).2 (h1 i hi),
        (hs k hkn).2 h2⟩

theorem keysBefore_trans {m w : ℕ} {d : Dir} {n : ℕ} {a b c : Row m w}
    (h1 : ¬ KeysBefore d n b a) (h2 : ¬ KeysBefore d n c b) : ¬ KeysBefore d n c a := by
  rintro ⟨k, hk, he, hlt⟩
  -- first key where `b` differs from `a` or `c`
  classical
  by_cases hex : ∃ j, j ≤ k ∧ (keyInt b j ≠ keyInt a j ∨ keyInt c j ≠ keyInt b j)
  · obtain ⟨hj1, hj2⟩ := Nat.find_spec hex
    have hmin : ∀ i < Nat.find hex, keyInt b i = keyInt a i ∧ keyInt c i = keyInt b i := by
      intro i hi
      have := Nat.find_min hex hi
      push Not at this
      exact this (by omega)
    generalize Nat.find hex = j at *
    have n1 : ¬ Before d (keyInt b j) (keyInt a j) := fun h =>
      h1 ⟨j, by omega, fun i hi => (hmin i hi).1, h⟩
    have n2 : ¬ Before d (keyInt c j) (keyInt b j) := fun h =>
      h2 ⟨j, by omega, fun i hi => (hmin i hi).2, h⟩
    by_cases hjk : j = k
    · subst hjk
      cases d <;> simp only [Before] at * <;> omega
    · have := he j (by omega)
      cases d <;> simp only [Before] at * <;> omega
  · push Not at hex
    have := hex k le_rfl
    cases d <;> simp only [Before] at * <;> omega

/-- **C32** for the comparator the library builds (`simple_sort1d` on a protocol without shuffle
kernels): several keys, most significant first, either direction.  No row of the result has keys
that should come before those of an earlier row, and the rows are those of the input.  The keys must
lie in `[-2^(w-2), 2^(w-2))`, see C37 for what happens otherwise. -/
theorem c32_sort_by_keys {m w n : ℕ} (hw : 2 ≤ w) (d : Dir) (numKeys : ℕ) (hk : 0 < numKeys)
    (c : Cols m w) (hlen : ∀ o, (c o).length = n)
    (hD : ∀ i < n, InRange numKeys (rowAt c i)) :
    ∃ c', oddEvenMergeSort (cmpFunc d numKeys) n c = some c' ∧ (∀ o, (c' o).length = n) ∧
      (rows n c').Perm (rows n c) ∧
      ∀ i j, i < j → j < n → ¬ KeysBefore d numKeys (rowAt c' j) (rowAt c' i) := by
  refine c32_network_sorts (D := InRange numKeys) (le := fun a b => ¬ KeysBefore d numKeys b a)
    ⟨fun a b ha hb h h' => ?_, fun a b ha hb h h' => ?_, fun a b c h1 h2 => keysBefore_trans h1 h2⟩
    c hlen hD
  · -- antisymmetry
    obtain ⟨k, hkn, h1, h2⟩ := (cmpFunc_iff hw d numKeys hk a b ha hb).1 h
    obtain ⟨l, hln, h3, h4⟩ := h'
    rcases lt_trichotomy k l with hkl | rfl | hkl
    · have := h3 k hkl
      cases d <;> simp only [Before] at * <;> omega
    · cases d <;> simp only [Before] at * <;> omega
    · have := h1 l hkl
      cases d <;> simp only [Before] at * <;> omega
  · have := (cmpFunc_iff hw d numKeys hk a b ha hb).2 h'
    rw [h] at this
    exact absurd this (by simp)

/-! non-vacuity: seven rows (not a power of two), two keys with ties and one payload -/
def netDemo : Cols 3 16 := fun o =>
  match o with
  | 0 => [3, 1, 3, 2, 1, 3, 0].map (BitVec.ofNat 16)
  | 1 => [5, 4, 65535, 0, 4, 7, 9].map (BitVec.ofNat 16)
  | 2 => [0, 1, 2, 3, 4, 5, 6].map (BitVec.ofNat 16)

def showCols {m w : ℕ} (c : Cols m w) : List (List ℤ) :=
  (List.finRange m).map fun o => (c o).map BitVec.toInt

example : (oddEvenMergeSort (cmpFunc .ascending 2) 7 netDemo).map showCols =
    some [[0, 1, 1, 2, 3, 3, 3], [9, 4, 4, 0, -1, 5, 7], [6, 1, 4, 3, 2, 0, 5]] := by
  decide +kernel

example : (∀ o, (netDemo o).length = 7) ∧ ∀ i < 7, InRange 2 (rowAt netDemo i) := by
  refine ⟨by decide, ?_⟩
  unfold InRange
  decide +kernel

end Spu.Props

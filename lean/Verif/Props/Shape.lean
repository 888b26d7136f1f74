import Verif.Lemmas.Shape

set_option autoImplicit false

/-!
# C01, C02 : row-major indexing

Spec vocabulary: `Spec.InB` (valid index), `Spec.size` (element count), `Spec.pos` (row-major position).
-/

namespace Spu.Props
open Model Spec

/-- `pos` really is row-major order: it orders valid indices lexicographically. -/
theorem c01_pos_lex {idx idx' sh : List Nat} (h : InB idx sh) (h' : InB idx' sh) :
    pos idx sh < pos idx' sh ↔ idx < idx' := by
  induction h generalizing idx' with
  | nil => cases h'; simp [pos]
  | @cons i d is ds hi his ih =>
    cases h' with
    | @cons i' _ is' _ hi' his' =>
      have h1 := pos_lt_size his
      have h2 := pos_lt_size his'
      rw [List.cons_lt_cons_iff, ← ih his']
      simp only [pos]
      rcases Nat.lt_trichotomy i i' with hlt | heq | hgt
      · have : (i + 1) * size ds ≤ i' * size ds := Nat.mul_le_mul_right _ hlt
        rw [Nat.add_mul] at this
        constructor
        · intro _; exact Or.inl hlt
        · intro _; omega
      · subst heq; simp
      · have : (i' + 1) * size ds ≤ i * size ds := Nat.mul_le_mul_right _ hgt
        rw [Nat.add_mul] at this
        constructor
        · intro _; omega
        · rintro (h | ⟨h, _⟩) <;> omega

/-- C01 (flatten): flattening a valid index succeeds and gives its row-major position, below the element count;
unflattening that position gives the index back. -/
theorem c01_flatten {idx sh : List Nat} (h : InB idx sh) :
    flattenIndex idx sh = some (pos idx sh) ∧ pos idx sh < numel sh ∧
    unflattenIndex (pos idx sh) sh = some idx :=
  ⟨flattenIndex_eq (InB.length h), by rw [numel_eq_size]; exact pos_lt_size h, unflatten_of_InB h⟩

example : InB [1, 0, 3] [2, 1, 4] ∧ flattenIndex [1, 0, 3] [2, 1, 4] = some 7 :=
  ⟨.cons (by decide) (.cons (by decide) (.cons (by decide) .nil)), by decide⟩

/-- C01 (unflatten): every position below the element count unflattens (no division by zero) to a valid index,
and flattening it gives the position back. -/
theorem c01_unflatten {sh : List Nat} {p : Nat} (hp : p < numel sh) :
    ∃ idx, unflattenIndex p sh = some idx ∧ InB idx sh ∧ flattenIndex idx sh = some p := by
  rw [numel_eq_size] at hp
  obtain ⟨idx, h1, h2, h3⟩ := unflattenIndex_spec hp
  exact ⟨idx, h1, h2, by rw [flattenIndex_eq (InB.length h2), h3]⟩

example : (7 : Nat) < numel [2, 1, 4] := by decide

/-- C01 (compact strides): the offset computed from the compact strides (or from empty strides, which mean compact)
of a valid index is its row-major position. -/
theorem c01_compact_strides {idx sh : List Nat} (h : InB idx sh) :
    calcFlattenOffset idx sh (makeCompactStrides sh) = (pos idx sh : Int) ∧
    calcFlattenOffset idx sh [] = (pos idx sh : Int) := by
  have h0 := strideDot_compact h
  constructor
  · unfold calcFlattenOffset
    split <;> exact h0
  · unfold calcFlattenOffset
    split
    · exact h0
    · rename_i hc
      have : sh = [] := by
        cases sh with
        | nil => rfl
        | cons => simp at hc
      subst this
      cases h
      rfl

/-- C01 (bounds check): the library's bounds test decides validity, and the element count is the number of
valid indices' positions (product of extents). -/
theorem c01_inBounds (idx sh : List Nat) : (inBounds idx sh = true ↔ InB idx sh) ∧ numel sh = size sh :=
  ⟨inBounds_iff idx sh, numel_eq_size sh⟩

/-- Iterate the bump operation `n` times from the all-zero index. -/
def bumpN (sh : Shape) : Nat → Option Index
  | 0 => some (List.replicate sh.length 0)
  | n + 1 => (bumpN sh n).bind (bumpIndices sh)

/-- C02: for a non-empty shape the `n`-fold bump of the zero index is the valid index with row-major position `n`
(so each index is visited exactly once, in order) for every `n` below the element count; bumping the last
index reports exhaustion. -/
theorem c02_bump_enumerates {sh : Shape} (hs : 0 < size sh) (n : Nat) :
    (n < size sh → ∃ idx, bumpN sh n = some idx ∧ InB idx sh ∧ pos idx sh = n) ∧
    (n = size sh → bumpN sh n = none) := by
  have key : ∀ n, n < size sh → ∃ idx, bumpN sh n = some idx ∧ InB idx sh ∧ pos idx sh = n := by
    intro n
    induction n with
    | zero => intro _; exact ⟨_, rfl, InB_zeros hs, pos_zeros sh⟩
    | succ n ih =>
      intro hn
      obtain ⟨idx, h1, h2, h3⟩ := ih (by omega)
      cases hb : bumpIndices sh idx with
      | none => have := (bump_spec h2).2 hb; omega
      | some idx' =>
        have := (bump_spec h2).1 idx' hb
        exact ⟨idx', by simp [bumpN, h1, hb], this.1, by omega⟩
  refine ⟨key n, ?_⟩
  intro hn
  obtain ⟨m, rfl⟩ : ∃ m, n = m + 1 := ⟨n - 1, by omega⟩
  obtain ⟨idx, h1, h2, h3⟩ := key m (by omega)
  cases hb : bumpIndices sh idx with
  | none => simp [bumpN, h1, hb]
  | some idx' =>
    have := (bump_spec h2).1 idx' hb
    have := pos_lt_size this.1
    omega

example : 0 < size [2, 3] ∧ bumpN [2, 3] 4 = some [1, 1] ∧ bumpN [2, 3] 6 = none := by decide

end Spu.Props

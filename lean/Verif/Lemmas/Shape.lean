import Verif.Model.Shape
import Verif.Spec.Index
import Mathlib.Tactic.Ring
import Mathlib.Tactic.Linarith

set_option autoImplicit false

/-! Helper lemmas about the shape model. -/

namespace Spu
open Model Spec

theorem InB.length {idx sh} (h : InB idx sh) : idx.length = sh.length := by
  induction h with
  | nil => rfl
  | cons _ _ ih => simp [ih]

theorem numel_eq_size (sh : Shape) : numel sh = size sh := by
  unfold numel
  have : ∀ (l : List Nat) (a : Nat), l.foldl (· * ·) a = a * size l := by
    intro l
    induction l with
    | nil => intro a; simp [size]
    | cons d ds ih => intro a; simp only [List.foldl_cons, ih, size]; ring
  simpa using this sh 1

theorem inBounds_iff (idx sh) : inBounds idx sh = true ↔ InB idx sh := by
  unfold inBounds
  induction idx generalizing sh with
  | nil => cases sh with
    | nil => simp [InB.nil]
    | cons d ds => simp; intro h; cases h
  | cons i is ih => cases sh with
    | nil => simp; intro h; cases h
    | cons d ds =>
      have := ih ds
      simp only [Bool.and_eq_true, beq_iff_eq] at this
      constructor
      · intro h
        simp at h
        refine .cons h.2.1 (this.1 ⟨h.1, by simpa using h.2.2⟩)
      · intro h
        cases h with
        | cons h1 h2 =>
          have := this.2 h2
          simp only [Bool.and_eq_true, beq_iff_eq, List.length_cons, List.zipWith_cons_cons, List.all_cons,
            id, decide_eq_true_eq]
          exact ⟨by omega, h1, this.2⟩

theorem size_pos_of_InB {idx sh} (h : InB idx sh) : 0 < size sh := by
  induction h with
  | nil => simp [size]
  | cons h _ ih => exact Nat.mul_pos (by omega) ih

theorem pos_lt_size {idx sh} (h : InB idx sh) : pos idx sh < size sh := by
  induction h with
  | nil => simp [size, pos]
  | @cons i d is ds h _ ih =>
    simp only [size, pos]
    calc i * size ds + pos is ds < i * size ds + size ds := by omega
      _ = (i + 1) * size ds := by ring
      _ ≤ d * size ds := Nat.mul_le_mul_right _ h

theorem pos_inj {idx idx' sh} (h : InB idx sh) (h' : InB idx' sh) (e : pos idx sh = pos idx' sh) :
    idx = idx' := by
  induction h generalizing idx' with
  | nil => cases h'; rfl
  | @cons i d is ds hi his ih =>
    cases h' with
    | @cons i' _ is' _ hi' his' =>
      simp only [pos] at e
      have h1 := pos_lt_size his
      have h2 := pos_lt_size his'
      have hd : (i * size ds + pos is ds) / size ds = i := by
        rw [Nat.mul_comm, Nat.mul_add_div (by omega), Nat.div_eq_of_lt h1]; simp
      have hd' : (i' * size ds + pos is' ds) / size ds = i' := by
        rw [Nat.mul_comm, Nat.mul_add_div (by omega), Nat.div_eq_of_lt h2]; simp
      have : i = i' := by rw [← hd, ← hd', e]
      subst this
      have : pos is ds = pos is' ds := by omega
      rw [ih his' this]

theorem flattenLoop_cons (i is d ds) : flattenLoop (i :: is) (d :: ds) =
    ((flattenLoop is ds).1 + i * (flattenLoop is ds).2, (flattenLoop is ds).2 * d) := by
  simp [flattenLoop]

theorem flattenLoop_eq {idx sh : List Nat} (h : idx.length = sh.length) :
    flattenLoop idx sh = (pos idx sh, size sh) := by
  induction idx generalizing sh with
  | nil => cases sh with
    | nil => simp [flattenLoop, pos, size]
    | cons => simp at h
  | cons i is ih => cases sh with
    | nil => simp at h
    | cons d ds =>
      have h' : is.length = ds.length := by simpa using h
      rw [flattenLoop_cons, ih h']
      simp only [pos, size, Prod.mk.injEq]
      constructor <;> ring

theorem flattenIndex_eq {idx sh : List Nat} (h : idx.length = sh.length) :
    flattenIndex idx sh = some (pos idx sh) := by
  simp [flattenIndex, h, flattenLoop_eq h]

theorem unflattenLoop_spec {sh : List Nat} (hs : 0 < size sh) (p : Nat) :
    ∃ idx, unflattenLoop p sh = some (idx, p / size sh) ∧ InB idx sh ∧ pos idx sh = p % size sh := by
  induction sh with
  | nil => exact ⟨[], by simp [unflattenLoop, size], .nil, by simp [pos, size, Nat.mod_one]⟩
  | cons d ds ih =>
    simp only [size] at hs
    have hd : 0 < d := Nat.pos_of_mul_pos_right hs
    have hds : 0 < size ds := Nat.pos_of_mul_pos_left hs
    obtain ⟨is, h1, h2, h3⟩ := ih hds
    refine ⟨(p / size ds % d) :: is, ?_, .cons (Nat.mod_lt _ hd) h2, ?_⟩
    · simp only [unflattenLoop, h1, size]
      rw [if_neg (by omega), Nat.div_div_eq_div_mul, Nat.mul_comm d]
    · simp only [pos, size, h3]
      rw [Nat.mul_comm d, Nat.mod_mul]
      ring

theorem unflattenIndex_spec {sh : List Nat} {p : Nat} (hp : p < size sh) :
    ∃ idx, unflattenIndex p sh = some idx ∧ InB idx sh ∧ pos idx sh = p := by
  obtain ⟨idx, h1, h2, h3⟩ := unflattenLoop_spec (by omega : 0 < size sh) p
  refine ⟨idx, by simp [unflattenIndex, h1], h2, ?_⟩
  rw [h3, Nat.mod_eq_of_lt hp]

theorem unflatten_of_InB {idx sh : List Nat} (h : InB idx sh) :
    unflattenIndex (pos idx sh) sh = some idx := by
  obtain ⟨idx', h1, h2, h3⟩ := unflattenIndex_spec (pos_lt_size h)
  rw [h1, pos_inj h2 h h3]

theorem strideDot_cons (i is s ss) : strideDot (i :: is) (s :: ss) = strideDot is ss + (i : Int) * s := by
  simp [strideDot]

theorem strideDot_nil : strideDot [] [] = 0 := rfl

theorem compactStridesLoop_cons (d : Nat) (ds : List Nat) :
    compactStridesLoop (d :: ds) = (size ds : Int) :: compactStridesLoop ds := by
  induction ds generalizing d with
  | nil => simp [compactStridesLoop, size]
  | cons e es ih =>
    rw [compactStridesLoop, ih e]
    simp only [size]
    push_cast
    congr 1
    ring

theorem makeCompactStrides_cons (d : Nat) (ds : List Nat) :
    makeCompactStrides (d :: ds) = (if d = 1 then 0 else (size ds : Int)) :: makeCompactStrides ds := by
  simp [makeCompactStrides, compactStridesLoop_cons]

theorem makeCompactStrides_length (sh : Shape) : (makeCompactStrides sh).length = sh.length := by
  induction sh with
  | nil => rfl
  | cons d ds ih => simp [makeCompactStrides_cons, ih]

theorem strideDot_compact {idx sh} (h : InB idx sh) :
    strideDot idx (makeCompactStrides sh) = (pos idx sh : Int) := by
  induction h with
  | nil => rfl
  | @cons i d is ds hi _ ih =>
    rw [makeCompactStrides_cons, strideDot_cons, ih]
    simp only [pos]
    split
    · have : i = 0 := by omega
      subst this; simp
    · push_cast; ring

theorem InB_zeros {sh} (hs : 0 < size sh) : InB (List.replicate sh.length 0) sh := by
  induction sh with
  | nil => exact .nil
  | cons d ds ih =>
    simp only [size] at hs
    exact .cons (Nat.pos_of_mul_pos_right hs) (ih (Nat.pos_of_mul_pos_left hs))

theorem pos_zeros (sh) : pos (List.replicate sh.length 0) sh = 0 := by
  induction sh with
  | nil => rfl
  | cons d ds ih => simp [List.replicate_succ, pos, ih]

theorem bump_spec {idx sh} (h : InB idx sh) :
    (∀ idx', bumpIndices sh idx = some idx' → InB idx' sh ∧ pos idx' sh = pos idx sh + 1) ∧
    (bumpIndices sh idx = none → pos idx sh + 1 = size sh) := by
  induction h with
  | nil => simp [bumpIndices, pos, size]
  | @cons i d is ds hi his ih =>
    simp only [bumpIndices]
    cases hb : bumpIndices ds is with
    | some is' =>
      obtain ⟨h1, h2⟩ := ih.1 is' hb
      simp only [Option.some.injEq, forall_eq', reduceCtorEq, false_implies, and_true]
      exact ⟨.cons hi h1, by simp only [pos, h2]; omega⟩
    | none =>
      have h1 := ih.2 hb
      have hl := InB.length his
      constructor
      · intro idx'
        dsimp only
        split
        · rename_i hlt
          intro e
          simp only [Option.some.injEq] at e
          subst e
          rw [hl]
          refine ⟨.cons hlt (InB_zeros (size_pos_of_InB his)), ?_⟩
          simp only [pos, pos_zeros]
          rw [Nat.add_mul]; omega
        · intro e; cases e
      · dsimp only
        split
        · intro e; cases e
        · intro _
          have : d = i + 1 := by omega
          subst this
          simp only [pos, size, Nat.add_mul]; omega

end Spu

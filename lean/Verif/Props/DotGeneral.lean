import Verif.Lemmas.Contract

set_option autoImplicit false

/-!
# C75: `dot_general`

`stablehlo.dot_general` as the compiler legalises and canonicalises it and the executor runs it is the contraction of the
specification, for all dimension numbers with at least one contracting dimension and a batch that is not empty.
-/

namespace Spu.Props
open Spu.Spec Spu.Model Spu.Lemmas Spu.Lemmas.T Spu.Model.Con

variable {R : Type}

theorem others_succ {xs ys : List ℕ} {n : ℕ} (h : ∀ a ∈ xs ++ ys, a < n) : others xs ys (n + 1) = others xs ys n ++ [n] := by
  unfold others
  rw [List.range_succ, List.filter_append]
  congr 1
  have h1 : n ∉ xs := fun hm => absurd (h n (by simp [hm])) (by omega)
  have h2 : n ∉ ys := fun hm => absurd (h n (by simp [hm])) (by omega)
  simp [h1, h2]

theorem permuted_snoc {p i : List ℕ} (v : ℕ) (h : ∀ a ∈ p, a < i.length) : permuted p (i ++ [v]) = permuted p i := by
  apply List.map_congr_left
  intro a ha
  have := h a ha
  simp [List.getD_eq_getElem?_getD, List.getElem?_append_left this]

theorem placed_snoc {X Y Z b p c : List ℕ} {n : ℕ} (h : (X ++ Y ++ Z).Perm (List.range n)) (hb : b.length = X.length)
    (hp : p.length = Y.length) (hc : c.length = Z.length) :
    placed (X ++ (Y ++ [n]) ++ Z) (b ++ (p ++ [0]) ++ c) = placed (X ++ Y ++ Z) (b ++ p ++ c) ++ [0] := by
  obtain ⟨h1, h2, h3⟩ := perm_facts h
  have hw : permuted (X ++ Y ++ Z) (placed (X ++ Y ++ Z) (b ++ p ++ c)) = b ++ p ++ c := by
    refine permuted_unperm h2 (fun a ha => by rw [h1]; exact (h3 a).1 ha) (by simp only [List.length_append]; omega)
  have hl : (placed (X ++ Y ++ Z) (b ++ p ++ c)).length = n := by rw [placed, List.length_map, List.length_range, h1]
  generalize placed (X ++ Y ++ Z) (b ++ p ++ c) = w at *
  simp only [permuted_append] at hw
  have hw' := List.append_inj hw (by simp only [List.length_append, permuted_length]; omega)
  have hw'' := List.append_inj hw'.1 (by simp only [permuted_length]; omega)
  have hin : ∀ a, a ∈ X ∨ a ∈ Y ∨ a ∈ Z → a < w.length := fun a ha => by
    rw [hl]; exact (h3 a).1 (by simp only [List.mem_append]; tauto)
  have hq : permuted (X ++ (Y ++ [n]) ++ Z) (w ++ [0]) = b ++ (p ++ [0]) ++ c := by
    simp only [permuted_append]
    rw [permuted_snoc _ fun a ha => hin a (.inl ha), permuted_snoc _ fun a ha => hin a (.inr (.inl ha)),
      permuted_snoc _ fun a ha => hin a (.inr (.inr ha)), hw''.1, hw''.2, hw'.2]
    congr 3
    simp [permuted, ← hl]
  rw [← hq]
  refine unperm_permuted (fun a ha => ?_) ?_
  · simp only [List.length_append, List.length_singleton] at ha h1
    by_cases e : a = n
    · subst e; simp
    · have := (h3 a).2 (by omega)
      simp only [List.mem_append] at this ⊢
      tauto
  · simp only [List.length_append, List.length_singleton] at h1 ⊢; omega

/-- what `ensureAtLeast3D` does to the reading of an operand -/
theorem atLeast3D_spec {xb xc : List ℕ} (x : Ten R) (hn : (xb ++ xc).Nodup) (hm : ∀ a ∈ xb ++ xc, a < x.shape.length) :
    ∃ (u : Ten R) (e e0 : List ℕ), atLeast3D x = some u ∧ size e = 1 ∧ pos e0 e = 0 ∧ InB e0 e ∧
      (∀ a ∈ xb ++ xc, a < u.shape.length) ∧ permuted xb u.shape = permuted xb x.shape ∧ permuted xc u.shape = permuted xc x.shape ∧
      permuted (others xb xc u.shape.length) u.shape = permuted (others xb xc x.shape.length) x.shape ++ e ∧
      ¬ (xb.length = 1 ∧ xc.length = 1 ∧ others xb xc u.shape.length = []) ∧
      (∀ b p c, InB b (permuted xb x.shape) → InB p (permuted (others xb xc x.shape.length) x.shape) → InB c (permuted xc x.shape) →
        u.get (placed (xb ++ others xb xc u.shape.length ++ xc) (b ++ (p ++ e0) ++ c)) =
          x.get (placed (xb ++ others xb xc x.shape.length ++ xc) (b ++ p ++ c))) ∧
      ∀ b p c, InB b (permuted xb x.shape) → InB p (permuted (others xb xc x.shape.length) x.shape) → InB c (permuted xc x.shape) →
        u.get (placed (xb ++ xc ++ others xb xc u.shape.length) (b ++ c ++ (p ++ e0))) =
          x.get (placed (xb ++ xc ++ others xb xc x.shape.length) (b ++ c ++ p)) := by
  have hp := order_perm hn hm
  have hp' : (xb ++ others xb xc x.shape.length ++ xc).Perm (List.range x.shape.length) := by
    refine List.Perm.trans ?_ hp
    rw [List.append_assoc, List.append_assoc]
    exact List.Perm.append_left _ List.perm_append_comm
  unfold atLeast3D
  split
  · rename_i h3
    refine ⟨x, [], [], rfl, rfl, rfl, .nil, hm, rfl, rfl, by simp, ?_, fun b p c _ _ _ => by simp, fun b p c _ _ _ => by simp⟩
    rintro ⟨h1, h2, h0⟩
    have := hp.length_eq
    rw [h0] at this
    simp at this; omega
  · obtain ⟨u, h1⟩ := reshape_isSome (t := x) (sh := x.shape ++ [1]) (by rw [size_append]; simp [size])
    obtain ⟨h2, h3⟩ := reshape_spec h1
    have hu : ∀ i, InB i x.shape → u.get (i ++ [0]) = x.get i := fun i hi =>
      h3 _ _ (InB_append hi (InB_single (by omega))) hi (by rw [pos_append hi]; simp [pos, size])
    have hl : u.shape.length = x.shape.length + 1 := by rw [h2]; simp
    have hm' := fun a (ha : a ∈ xb) => hm a (by simp [ha])
    have hm'' := fun a (ha : a ∈ xc) => hm a (by simp [ha])
    have ho : ∀ a ∈ others xb xc x.shape.length, a < x.shape.length := fun a ha => by
      simp only [others, List.mem_filter, List.mem_range] at ha; exact ha.1
    rw [h1]
    refine ⟨u, [1], [0], rfl, rfl, rfl, InB_single (by omega), ?_, ?_, ?_, ?_, ?_, ?_, ?_⟩
    · intro a ha; have := hm a ha; rw [hl]; omega
    · rw [h2]; exact permuted_snoc _ hm'
    · rw [h2]; exact permuted_snoc _ hm''
    · rw [hl, others_succ hm, h2, permuted_append, permuted_snoc _ ho]; congr 1; simp [permuted]
    · rw [hl, others_succ hm]; simp
    · intro b p c hb hpp hc
      rw [hl, others_succ hm, placed_snoc hp' (by rw [InB.length hb, permuted_length]) (by rw [InB.length hpp, permuted_length])
        (by rw [InB.length hc, permuted_length]), hu]
      obtain ⟨k1, k2, k3⟩ := perm_facts hp'
      refine InB_unperm k1 (fun a ha => (k3 a).2 (by omega)) ?_
      rw [permuted_append, permuted_append]
      exact InB_append (InB_append hb hpp) hc
    · intro b p c hb hpp hc
      have := placed_snoc (X := xb ++ xc) (Y := others xb xc x.shape.length) (Z := []) (b := b ++ c) (p := p) (c := [])
        (by simpa using hp) (by simp [InB.length hb, InB.length hc, permuted_length]) (by rw [InB.length hpp, permuted_length]) rfl
      simp only [List.append_nil] at this
      rw [hl, others_succ hm, this, hu]
      obtain ⟨k1, k2, k3⟩ := perm_facts hp
      refine InB_unperm k1 (fun a ha => (k3 a).2 (by omega)) ?_
      rw [permuted_append, permuted_append]
      exact InB_append (InB_append hb hc) hpp

theorem pos_ext {b p q B P Q e e0 f f0 : List ℕ} (hb : InB b B) (hp : InB p P) (hq : InB q Q) (he : InB e0 e) (h1 : size e = 1)
    (h2 : pos e0 e = 0) (h3 : size f = 1) (h4 : pos f0 f = 0) :
    pos (b ++ (p ++ e0) ++ (q ++ f0)) (B ++ (P ++ e) ++ (Q ++ f)) = pos (b ++ p ++ q) (B ++ P ++ Q) := by
  rw [pos_append (InB_append hb (InB_append hp he)), pos_append hb, pos_append hp, pos_append hq, pos_append (InB_append hb hp),
    pos_append hb, size_append, size_append, h1, h2, h3, h4]
  ring

/-- `dot_general` is the contraction of the specification -/
theorem c75_dotGeneral [CommRing R] {lb rb lc rc : List ℕ} {x y : Ten R} (h : DotDims lb rb lc rc x.shape y.shape) (hc : lc ≠ [])
    (hb : 0 ∉ permuted lb x.shape) :
    ∃ z, dotGeneralHlo lb rb lc rc (permuted lb x.shape ++ permuted (others lb lc x.shape.length) x.shape ++
        permuted (others rb rc y.shape.length) y.shape) x y = some z ∧
      z.shape = permuted lb x.shape ++ permuted (others lb lc x.shape.length) x.shape ++
        permuted (others rb rc y.shape.length) y.shape ∧
      ∀ b p q, InB b (permuted lb x.shape) → InB p (permuted (others lb lc x.shape.length) x.shape) →
        InB q (permuted (others rb rc y.shape.length) y.shape) →
        z.get (b ++ p ++ q) = dotAt lb rb lc rc x.shape y.shape x.get y.get b p q := by
  obtain ⟨u, e, e0, u1, u2, u3, u4, u5, u6, u7, u8, u9, u10, -⟩ := atLeast3D_spec x h.lnodup h.lrange
  obtain ⟨v, f, f0, v1, v2, v3, v4, v5, v6, v7, v8, v9, -, v11⟩ := atLeast3D_spec y h.rnodup h.rrange
  have hd : DotDims lb rb lc rc u.shape v.shape := ⟨h.lnodup, h.rnodup, u5, v5, by rw [u6, v6]; exact h.batch, by
    rw [u7, v7]; exact h.contract⟩
  obtain ⟨z, z1, z2, z3⟩ := dotGeneral_gen hd hc (ret := permuted lb x.shape ++ permuted (others lb lc x.shape.length) x.shape ++
        permuted (others rb rc y.shape.length) y.shape) (by rw [u6]; exact size_pos_iff.2 hb) u9 v9 (by
      rw [u6, u8, v8]; simp only [size_append, u2, v2]; ring)
  unfold dotGeneralHlo
  refine ⟨z, by simp only [u1, v1, Option.bind_eq_bind, Option.bind_some, z1], z2, fun b p q hb hp hq => ?_⟩
  rw [u6, u8, v8] at z3
  rw [z3 _ b (p ++ e0) (q ++ f0) (InB_append (InB_append hb hp) hq) hb (InB_append hp u4) (InB_append hq v4)
    (pos_ext hb hp hq u4 u2 u3 v2 v3).symm]
  unfold dotAt
  rw [u7]
  congr 1
  apply List.map_congr_left
  intro c hc
  have hc := mem_allIdx.1 hc
  rw [u10 b p c hb hp hc, v11 b q c (by rw [← h.batch]; exact hb) hq (by rw [← h.contract]; exact hc)]

/-- without a contracting dimension the operation is never executed -/
theorem c75_dotGeneral_outer [CommRing R] (lb rb rc ret : List ℕ) (x y : Ten R) : dotGeneralHlo lb rb [] rc ret x y = none := by
  unfold dotGeneralHlo dotGeneral
  cases atLeast3D x <;> cases atLeast3D y <;> simp

/-- the canonicalisation on its own does not carry a batch of vectors: the trailing dimension that the legalisation adds is needed -/
theorem c75_dotGeneral_vectors [CommRing R] {x y : Ten R} {b k : ℕ} {ret : List ℕ} (hx : x.shape = [b, k]) :
    dotGeneral [0] [0] [1] [1] ret x y = none := by
  have e : lhsOrder [0] [1] x.shape.length = [0, 1] := by rw [hx]; rfl
  unfold dotGeneral
  rw [if_neg (by simp), e]
  have h1 : transposeIf x [0, 1] = some x := rfl
  have h2 : standard3 x 1 1 = some x := by unfold standard3; rw [hx, if_pos (by simp)]
  rw [h1]
  cases h3 : transposeIf y (rhsOrder [0] [1] y.shape.length) with
  | none => rfl
  | some r =>
    have h4 : x.shape.length - 1 = 1 := by rw [hx]; rfl
    simp only [Option.bind_eq_bind, Option.bind_some, List.length_singleton, h4, h2]
    cases h5 : standard3 r 1 (1 + 1) with
    | none => rfl
    | some s =>
      have : dotBatch x s = none := by unfold dotBatch; rw [hx]
      simp [this]

-- a batch of two matrices with the contracted axis first, and a batch of vectors
example : DotDims [2] [0] [0] [1] [3, 2, 2] [2, 3] := by constructor <;> decide
example : (dotGeneralHlo [2] [0] [0] [1] [2, 2] (⟨[3, 2, 2], fun i => (pos i [3, 2, 2] : ℤ)⟩) ⟨[2, 3], fun i => pos i [2, 3] + 1⟩).map
    (fun z => (z.shape, (allIdx z.shape).map z.get)) = some ([2, 2], [32, 44, 83, 113]) := by decide +kernel
-- a vector and a matrix
example : (dotGeneralHlo [] [] [0] [1] [2] (⟨[3], fun i => (pos i [3] : ℤ)⟩) ⟨[2, 3], fun i => pos i [2, 3] + 1⟩).map
    (fun z => (z.shape, (allIdx z.shape).map z.get)) = some ([2], [8, 17]) := by decide +kernel

end Spu.Props

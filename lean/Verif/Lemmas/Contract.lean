import Verif.Model.Contract
import Verif.Spec.Contract
import Verif.Lemmas.ReduceAx
import Mathlib.Tactic.Ring

set_option autoImplicit false

/-! # Lemmas about contractions -/

namespace Spu.Lemmas.T
open Spu.Spec Spu.Model Spu.Lemmas Spu.Props Spu.Model.Con

theorem placed_eq (p i : List ℕ) : placed p i = unperm p i := rfl

variable {α : Type}

theorem transpose_spec {perm : List ℕ} (t : Ten α) (hl : perm.length = t.shape.length) (hn : perm.Nodup)
    (hm : ∀ a ∈ perm, a < t.shape.length) :
    ∃ r, t.transpose perm = some r ∧ r.shape = permuted perm t.shape ∧ ∀ i, r.get i = t.get (placed perm i) := by
  unfold Ten.transpose
  rw [if_pos ⟨hl, hn, hm⟩]
  exact ⟨_, rfl, rfl, fun i => by simp only [placed, hl]⟩

theorem consecutive_range : ∀ (l : List ℕ) (a : ℕ), consecutive (a :: l) = true → a :: l = List.range' a (l.length + 1) := by
  intro l
  induction l with
  | nil => intro a _; rfl
  | cons b l ih =>
    intro a h
    simp only [consecutive, Bool.and_eq_true, decide_eq_true_eq] at h
    obtain ⟨rfl, h⟩ := h
    rw [ih _ h, List.length_range']; rfl

theorem consecutive_id {perm : List ℕ} {n : ℕ} (hl : perm.length = n) (hm : ∀ a ∈ perm, a < n) (h : consecutive perm = true) :
    perm = List.range n := by
  cases perm with
  | nil => subst hl; rfl
  | cons a l =>
    have e := consecutive_range l a h
    rw [List.length_cons] at hl
    have : a + l.length ∈ a :: l := by rw [e, List.mem_range'_1]; omega
    have := hm _ this
    have ha : a = 0 := by omega
    rw [e, hl, ha, List.range_eq_range']

theorem permuted_range {i : List ℕ} : permuted (List.range i.length) i = i := map_range_getD i

theorem placed_range {i : List ℕ} : placed (List.range i.length) i = i := by
  have := unperm_permuted (perm := List.range i.length) (i := i) (by simp) (by simp)
  rwa [permuted_range] at this

theorem placed_range' {i : List ℕ} {n : ℕ} (h : i.length = n) : placed (List.range n) i = i := by subst h; exact placed_range

theorem transposeIf_spec {R : Type} {perm : List ℕ} (t : Ten R) (hl : perm.length = t.shape.length) (hn : perm.Nodup)
    (hm : ∀ a ∈ perm, a < t.shape.length) :
    ∃ r, transposeIf t perm = some r ∧ r.shape = permuted perm t.shape ∧
      ∀ i, i.length = t.shape.length → r.get i = t.get (placed perm i) := by
  unfold transposeIf
  split
  · rename_i h
    have e := consecutive_id hl hm h
    refine ⟨t, rfl, ?_, fun i hi => ?_⟩
    · rw [e, permuted_range]
    · rw [e, placed_range' hi]
  · obtain ⟨r, h1, h2, h3⟩ := transpose_spec t hl hn hm
    exact ⟨r, h1, h2, fun i _ => h3 i⟩

variable {R : Type}

theorem matmul_spec [CommRing R] {x y : Ten R} {m k n : ℕ} (hx : x.shape = [m, k]) (hy : y.shape = [k, n]) :
    ∃ z, matmul x y = some z ∧ z.shape = [m, n] ∧
      ∀ i j, z.get [i, j] = ((List.range k).map fun l => x.get [i, l] * y.get [l, j]).sum := by
  unfold matmul
  rw [hx, hy]
  simp only [if_true]
  exact ⟨_, rfl, rfl, fun i j => rfl⟩

theorem pos_pair (a b A B : ℕ) : pos [a, b] [A, B] = a * B + b := by simp [pos, size]

theorem InB_pair {a b A B : ℕ} (ha : a < A) (hb : b < B) : InB [a, b] [A, B] := .cons ha (.cons hb .nil)

/-- reshape to a matrix -/
theorem reshape2 {x : Ten R} {P C : List ℕ} (hx : x.shape = P ++ C) :
    ∃ l, x.reshape [size P, size C] = some l ∧ l.shape = [size P, size C] ∧
      ∀ p c, InB p P → InB c C → l.get [pos p P, pos c C] = x.get (p ++ c) := by
  obtain ⟨l, h⟩ := reshape_isSome (t := x) (sh := [size P, size C]) (by rw [hx, size_append]; simp [size])
  obtain ⟨h1, h2⟩ := reshape_spec h
  refine ⟨l, h, h1, fun p c hp hc => h2 _ _ (InB_pair (pos_lt_size hp) (pos_lt_size hc)) ?_ ?_⟩
  · rw [hx]; exact InB_append hp hc
  · rw [hx, pos_append hp, pos_pair]

theorem sum_range_allIdx [CommRing R] (C : List ℕ) (f : ℕ → R) : ((List.range (size C)).map f).sum = ((allIdx C).map fun c => f (pos c C)).sum := by
  rw [← map_pos_allIdx, List.map_map]; rfl

theorem mm_spec [CommRing R] {x y : Ten R} {P C Q : List ℕ} (hx : x.shape = P ++ C) (hy : y.shape = C ++ Q) :
    ∃ l r z w, x.reshape [size P, size C] = some l ∧ y.reshape [size C, size Q] = some r ∧ matmul l r = some z ∧
      z.reshape (P ++ Q) = some w ∧ w.shape = P ++ Q ∧ ∀ p q, InB p P → InB q Q →
        w.get (p ++ q) = ((allIdx C).map fun c => x.get (p ++ c) * y.get (c ++ q)).sum := by
  obtain ⟨l, l1, l2, l3⟩ := reshape2 hx
  obtain ⟨r, r1, r2, r3⟩ := reshape2 hy
  obtain ⟨z, z1, z2, z3⟩ := matmul_spec l2 r2
  obtain ⟨w, w1⟩ := reshape_isSome (t := z) (sh := P ++ Q) (by rw [z2, size_append]; simp [size])
  obtain ⟨w2, w3⟩ := reshape_spec w1
  refine ⟨l, r, z, w, l1, r1, z1, w1, w2, fun p q hp hq => ?_⟩
  rw [w3 (p ++ q) [pos p P, pos q Q] (InB_append hp hq) (by rw [z2]; exact InB_pair (pos_lt_size hp) (pos_lt_size hq))
    (by rw [z2, pos_append hp, pos_pair]), z3, sum_range_allIdx]
  congr 1
  apply List.map_congr_left
  intro c hc
  have hc := mem_allIdx.1 hc
  rw [l3 p c hp hc, r3 c q hc hq]

theorem pos_triple (a b c A B C : ℕ) : pos [a, b, c] [A, B, C] = (a * B + b) * C + c := by simp [pos, size]; ring

theorem InB_triple {a b c A B C : ℕ} (ha : a < A) (hb : b < B) (hc : c < C) : InB [a, b, c] [A, B, C] :=
  .cons ha (.cons hb (.cons hc .nil))

/-- reshape to a batch of matrices -/
theorem reshape3 {x : Ten R} {P B C : List ℕ} (hx : x.shape = B ++ P ++ C) :
    ∃ l, x.reshape [size B, size P, size C] = some l ∧ l.shape = [size B, size P, size C] ∧
      ∀ b p c, InB b B → InB p P → InB c C → l.get [pos b B, pos p P, pos c C] = x.get (b ++ p ++ c) := by
  obtain ⟨l, h⟩ := reshape_isSome (t := x) (sh := [size B, size P, size C]) (by
    rw [hx, size_append, size_append]; simp [size]; ring)
  obtain ⟨h1, h2⟩ := reshape_spec h
  refine ⟨l, h, h1, fun b p c hb hp hc => h2 _ _ (InB_triple (pos_lt_size hb) (pos_lt_size hp) (pos_lt_size hc)) ?_ ?_⟩
  · rw [hx]; exact InB_append (InB_append hb hp) hc
  · rw [hx, pos_append (InB_append hb hp), pos_append hb, pos_triple]

theorem batch_slice {x : Ten R} {b m k t : ℕ} (hx : x.shape = [b, m, k]) (ht : t < b) :
    ∃ l l', x.slice [t, 0, 0] [t + 1, m, k] [1, 1, 1] = some l ∧ l.reshape [m, k] = some l' ∧ l'.shape = [m, k] ∧
      ∀ i j, i < m → j < k → l'.get [i, j] = x.get [t, i, j] := by
  have hs : ∃ l, x.slice [t, 0, 0] [t + 1, m, k] [1, 1, 1] = some l ∧ l.shape = [1, m, k] ∧
      ∀ i j, l.get [0, i, j] = x.get [t, i, j] := by
    unfold Ten.slice
    rw [hx, if_pos ⟨by simp [Ten.fits]; omega, rfl, rfl, by simp⟩]
    exact ⟨_, rfl, by simp [sliceShape], fun i j => by simp [affine]⟩
  obtain ⟨l, l1, l2, l3⟩ := hs
  obtain ⟨l', h1⟩ := reshape_isSome (t := l) (sh := [m, k]) (by rw [l2]; simp [size])
  obtain ⟨h2, h3⟩ := reshape_spec h1
  refine ⟨l, l', l1, h1, h2, fun i j hi hj => ?_⟩
  rw [h3 [i, j] [0, i, j] (InB_pair hi hj) (by rw [l2]; exact InB_triple (by omega) hi hj)
    (by rw [l2, pos_pair, pos_triple]; ring), l3]

theorem dotBatch_spec [CommRing R] {x y : Ten R} {b m k n : ℕ} (hx : x.shape = [b, m, k]) (hy : y.shape = [b, k, n]) (hb : 0 < b) :
    ∃ z, dotBatch x y = some z ∧ z.shape = [b, m, n] ∧ ∀ t i j, t < b → i < m → j < n →
      z.get [t, i, j] = ((List.range k).map fun l => x.get [t, i, l] * y.get [t, l, j]).sum := by
  have hu : ∀ t, t < b → ∃ u, (do
        let l ← x.slice [t, 0, 0] [t + 1, m, k] [1, 1, 1]
        let l ← l.reshape [m, k]
        let r ← y.slice [t, 0, 0] [t + 1, k, n] [1, 1, 1]
        let r ← r.reshape [k, n]
        let z ← matmul l r
        return z.unsqueeze : Option (Ten R)) = some u ∧ u.shape = [1, m, n] ∧ ∀ i j, i < m → j < n →
          u.get [0, i, j] = ((List.range k).map fun l => x.get [t, i, l] * y.get [t, l, j]).sum := by
    intro t ht
    obtain ⟨l, l', l1, l2, l3, l4⟩ := batch_slice hx ht
    obtain ⟨r, r', r1, r2, r3, r4⟩ := batch_slice hy ht
    obtain ⟨z, z1, z2, z3⟩ := matmul_spec l3 r3
    refine ⟨z.unsqueeze, ?_, by simp [Ten.unsqueeze, z2], fun i j hi hj => ?_⟩
    · simp only [l1, l2, r1, r2, z1, Option.bind_eq_bind, Option.bind_some, Option.pure_def]
    · simp only [Ten.unsqueeze, List.tail_cons, z3]
      congr 1
      apply List.map_congr_left
      intro l hl
      have hl := List.mem_range.1 hl
      rw [l4 i l hi hl, r4 l j hl hj]
  classical
  let g : ℕ → Ten R := fun t => if h : t < b then (hu t h).choose else x
  have hg : ∀ t (h : t < b), g t = (hu t h).choose := fun t h => by simp only [g]; rw [dif_pos h]
  unfold dotBatch
  rw [hx, hy]
  simp only [if_true]
  rw [mapM_some (List.range b) _ g (by
    intro t ht
    have ht := List.mem_range.1 ht
    rw [hg t ht]; exact (hu t ht).choose_spec.1)]
  obtain ⟨c, c1, c2, c3⟩ := concat0_spec (l := (List.range b).map g) (sh := [m, n])
    (by intro h0; have := congrArg List.length h0; simp at this; omega) (by
      intro u hu'
      obtain ⟨t, ht, rfl⟩ := List.mem_map.1 hu'
      have ht := List.mem_range.1 ht
      rw [hg t ht]; exact (hu t ht).choose_spec.2.1)
  refine ⟨c, by simpa using c1, by simpa using c2, fun t i j ht hi hj => ?_⟩
  rw [c3 t (by simpa using ht)]
  simp only [List.getElem_map, List.getElem_range]
  rw [hg t ht]; exact (hu t ht).choose_spec.2.2 i j hi hj

theorem order_perm {xs ys : List ℕ} {rank : ℕ} (hn : (xs ++ ys).Nodup) (hm : ∀ a ∈ xs ++ ys, a < rank) :
    (xs ++ ys ++ others xs ys rank).Perm (List.range rank) := by
  have ho : (others xs ys rank).Nodup := List.nodup_range.filter _
  refine (List.perm_ext_iff_of_nodup ?_ List.nodup_range).2 fun a => ?_
  · refine List.nodup_append.2 ⟨hn, ho, ?_⟩
    intro a ha b hb e
    subst e
    simp only [others, List.mem_filter, decide_eq_true_eq] at hb
    rcases List.mem_append.1 ha with h | h
    · exact hb.2.1 h
    · exact hb.2.2 h
  · simp only [others, List.mem_append, List.mem_filter, List.mem_range, decide_eq_true_eq] at hm ⊢
    constructor
    · rintro (h | h)
      · exact hm a h
      · exact h.1
    · intro h
      by_cases h1 : a ∈ xs
      · exact .inl (.inl h1)
      · by_cases h2 : a ∈ ys
        · exact .inl (.inr h2)
        · exact .inr ⟨h, h1, h2⟩

theorem perm_facts {l : List ℕ} {n : ℕ} (h : l.Perm (List.range n)) : l.length = n ∧ l.Nodup ∧ ∀ a, a ∈ l ↔ a < n :=
  ⟨by simpa using h.length_eq, h.nodup_iff.2 List.nodup_range, fun a => by rw [h.mem_iff, List.mem_range]⟩

theorem permuted_length (p i : List ℕ) : (permuted p i).length = p.length := by simp [permuted]

theorem len_one {l : List ℕ} (h : l.length = 1) : ∃ a, l = [a] := List.length_eq_one_iff.1 h

theorem standard3_spec {x : Ten R} {A P C : List ℕ} (hx : x.shape = A ++ P ++ C) {b0 b1 : ℕ} (h0 : A.length = b0)
    (h1 : A.length + P.length = b1) (h : ¬ (A.length ≤ 1 ∧ P.length ≤ 1 ∧ C.length ≤ 1 ∧ A.length + P.length + C.length < 3)) :
    ∃ l, standard3 x b0 b1 = some l ∧ l.shape = [size A, size P, size C] ∧
      ∀ b p c, InB b A → InB p P → InB c C → l.get [pos b A, pos p P, pos c C] = x.get (b ++ p ++ c) := by
  subst h0 h1
  have hl : x.shape.length - (A.length + P.length) = C.length := by rw [hx]; simp only [List.length_append]; omega
  have e1 : x.shape.take A.length = A := by rw [hx, List.append_assoc, List.take_left]
  have e2 : x.shape.take (A.length + P.length) = A ++ P := by rw [hx]; exact List.take_left' (by simp)
  have e3 : x.shape.drop (A.length + P.length) = C := by rw [hx]; exact List.drop_left' (by simp)
  unfold standard3
  rw [hl, e1, e2, e3, List.drop_left]
  split
  · rename_i hc
    obtain ⟨a, rfl⟩ := len_one (l := A) (by omega)
    obtain ⟨p, rfl⟩ := len_one (l := P) (by omega)
    obtain ⟨c, rfl⟩ := len_one (l := C) (by omega)
    refine ⟨x, rfl, by simpa [size] using hx, fun b p c hb hp hc => ?_⟩
    obtain ⟨i, rfl⟩ := len_one (l := b) (InB.length hb)
    obtain ⟨j, rfl⟩ := len_one (l := p) (InB.length hp)
    obtain ⟨k, rfl⟩ := len_one (l := c) (InB.length hc)
    simp [pos_single]
  · exact reshape3 hx

theorem standard3_small {x : Ten R} {A P C : List ℕ} (hx : x.shape = A ++ P ++ C) {b0 b1 : ℕ} (h0 : A.length = b0)
    (h1 : A.length + P.length = b1) (h : A.length ≤ 1 ∧ P.length ≤ 1 ∧ C.length ≤ 1) : standard3 x b0 b1 = some x := by
  subst h0 h1
  have hl : x.shape.length - (A.length + P.length) = C.length := by rw [hx]; simp only [List.length_append]; omega
  unfold standard3
  rw [hl, if_pos ⟨h.1, by omega, h.2.2⟩]

/-- the canonicalised `dot_general`, when no operand is left with two dimensions -/
theorem dotGeneral_gen [CommRing R] {lb rb lc rc ret : List ℕ} {x y : Ten R} (h : DotDims lb rb lc rc x.shape y.shape) (hc : lc ≠ [])
    (hb : 0 < size (permuted lb x.shape))
    (hx : ¬ (lb.length = 1 ∧ lc.length = 1 ∧ others lb lc x.shape.length = []))
    (hy : ¬ (rb.length = 1 ∧ rc.length = 1 ∧ others rb rc y.shape.length = []))
    (hret : size ret = size (permuted lb x.shape ++ permuted (others lb lc x.shape.length) x.shape ++
      permuted (others rb rc y.shape.length) y.shape)) :
    ∃ z, dotGeneral lb rb lc rc ret x y = some z ∧ z.shape = ret ∧ ∀ i b p q, InB i ret → InB b (permuted lb x.shape) →
      InB p (permuted (others lb lc x.shape.length) x.shape) → InB q (permuted (others rb rc y.shape.length) y.shape) →
      pos i ret = pos (b ++ p ++ q) (permuted lb x.shape ++ permuted (others lb lc x.shape.length) x.shape ++
        permuted (others rb rc y.shape.length) y.shape) →
      z.get i = dotAt lb rb lc rc x.shape y.shape x.get y.get b p q := by
  have hlb : lb.length = rb.length := by simpa [permuted] using congrArg List.length h.batch
  have hlc : lc.length = rc.length := by simpa [permuted] using congrArg List.length h.contract
  have hrc : rc ≠ [] := by intro e; rw [e] at hlc; exact hc (by simpa using hlc)
  obtain ⟨l1, l2, l3⟩ := perm_facts (l := lb ++ others lb lc x.shape.length ++ lc) (n := x.shape.length) (by
    refine List.Perm.trans ?_ (order_perm h.lnodup h.lrange)
    rw [List.append_assoc, List.append_assoc]
    exact List.Perm.append_left _ List.perm_append_comm)
  obtain ⟨r1, r2, r3⟩ := perm_facts (order_perm h.rnodup h.rrange)
  obtain ⟨l, t1, t2, t3⟩ := transposeIf_spec x l1 l2 fun a => (l3 a).1
  obtain ⟨r, u1, u2, u3⟩ := transposeIf_spec y r1 r2 fun a => (r3 a).1
  have e1 : lhsOrder lb lc x.shape.length = lb ++ others lb lc x.shape.length ++ lc := rfl
  have e2 : rhsOrder rb rc y.shape.length = rb ++ rc ++ others rb rc y.shape.length := rfl
  unfold dotGeneral
  rw [if_neg (by tauto), e1, e2, t1, u1]
  simp only [Option.bind_eq_bind, Option.bind_some]
  rw [permuted_append, permuted_append] at t2 u2
  rw [← h.batch, ← h.contract] at u2
  generalize hP : others lb lc x.shape.length = lp at *
  generalize hQ : others rb rc y.shape.length = rp at *
  simp only [List.length_append] at l1 r1
  have lB := permuted_length lb x.shape
  have lP := permuted_length lp x.shape
  have lC := permuted_length lc x.shape
  have lQ := permuted_length rp y.shape
  unfold dotAt
  rw [hP, hQ]
  generalize permuted lb x.shape = B at *
  generalize permuted lp x.shape = P at *
  generalize permuted lc x.shape = C at *
  generalize permuted rp y.shape = Q at *
  have hval : ∀ b p q, InB b B → InB p P → InB q Q → ((allIdx C).map fun c =>
      l.get (b ++ p ++ c) * r.get (b ++ c ++ q)).sum = ((allIdx C).map fun c =>
      x.get (placed (lb ++ lp ++ lc) (b ++ p ++ c)) * y.get (placed (rb ++ rc ++ rp) (b ++ c ++ q))).sum := by
    intro b p q hb hp hq
    congr 1
    apply List.map_congr_left
    intro c hc
    have hc := InB.length (mem_allIdx.1 hc)
    have := InB.length hb; have := InB.length hp; have := InB.length hq
    rw [t3 _ (by simp only [List.length_append]; omega), u3 _ (by simp only [List.length_append]; omega)]
  by_cases hlb0 : lb = []
  · rw [if_pos hlb0]
    have hB : B = [] := by rw [hlb0] at lB; simpa using lB
    have hrb : rb.length = 0 := by rw [← hlb, hlb0]; rfl
    subst hB
    rw [List.nil_append] at t2 u2
    have d1 : l.shape.take (x.shape.length - lc.length) = P := by
      rw [t2]; exact List.take_left' (by rw [lP, ← l1, hlb, hrb]; omega)
    have d2 : l.shape.drop (x.shape.length - lc.length) = C := by
      rw [t2]; exact List.drop_left' (by rw [lP, ← l1, hlb, hrb]; omega)
    have d3 : r.shape.take rc.length = C := by rw [u2]; exact List.take_left' (by omega)
    have d4 : r.shape.drop rc.length = Q := by rw [u2]; exact List.drop_left' (by omega)
    rw [d1, d2, d3, d4, if_neg (by simp)]
    obtain ⟨l', h1, h2, h3⟩ := reshape2 t2
    obtain ⟨r', g1, g2, g3⟩ := reshape2 u2
    obtain ⟨z, z1, z2, z3⟩ := matmul_spec h2 g2
    obtain ⟨w, w1⟩ := reshape_isSome (t := z) (sh := ret) (by rw [z2, hret, List.nil_append, size_append]; simp [size])
    obtain ⟨w2, w3⟩ := reshape_spec w1
    refine ⟨w, by simp only [h1, g1, z1, w1, Option.bind_some], w2, fun i b p q hi hb hp hq e => ?_⟩
    cases hb
    rw [w3 i [pos p P, pos q Q] hi (by rw [z2]; exact InB_pair (pos_lt_size hp) (pos_lt_size hq))
      (by rw [z2, e, List.nil_append, List.nil_append, pos_append hp, pos_pair]), z3, sum_range_allIdx, ← hval [] p q .nil hp hq]
    congr 1
    apply List.map_congr_left
    intro c hc
    have hc := mem_allIdx.1 hc
    rw [h3 p c hp hc, g3 c q hc hq]; rfl
  · rw [if_neg hlb0]
    have hl0 : 0 < lb.length := List.length_pos_iff.2 hlb0
    have hc0 : 0 < lc.length := List.length_pos_iff.2 hc
    obtain ⟨l', h1, h2, h3⟩ := standard3_spec t2 (b0 := rb.length) (b1 := x.shape.length - lc.length) (by omega) (by omega) (by
      rintro ⟨k1, k2, k3, k4⟩
      refine hx ⟨by omega, by omega, ?_⟩
      exact List.length_eq_zero_iff.1 (by omega))
    obtain ⟨r', g1, g2, g3⟩ := standard3_spec u2 (b0 := rb.length) (b1 := rb.length + rc.length) (by omega) (by omega) (by
      rintro ⟨k1, k2, k3, k4⟩
      refine hy ⟨by omega, by omega, ?_⟩
      exact List.length_eq_zero_iff.1 (by omega))
    obtain ⟨z, z1, z2, z3⟩ := dotBatch_spec h2 g2 hb
    obtain ⟨w, w1⟩ := reshape_isSome (t := z) (sh := ret) (by
      rw [z2, hret, size_append, size_append]; simp [size]; ring)
    obtain ⟨w2, w3⟩ := reshape_spec w1
    refine ⟨w, by simp only [h1, g1, z1, w1, Option.bind_some], w2, fun i b p q hi hb hp hq e => ?_⟩
    rw [w3 i [pos b B, pos p P, pos q Q] hi (by rw [z2]; exact InB_triple (pos_lt_size hb) (pos_lt_size hp) (pos_lt_size hq))
      (by rw [z2, e, pos_append (InB_append hb hp), pos_append hb, pos_triple]),
      z3 _ _ _ (pos_lt_size hb) (pos_lt_size hp) (pos_lt_size hq), sum_range_allIdx, ← hval b p q hb hp hq]
    congr 1
    apply List.map_congr_left
    intro c hc
    have hc := mem_allIdx.1 hc
    rw [h3 b p c hb hp hc, g3 b c q hb hc hq]

end Spu.Lemmas.T

import Verif.Props.DotGeneral

set_option autoImplicit false

/-!
# C75: `tensordot` and convolution
-/

namespace Spu.Props
open Spu.Spec Spu.Model Spu.Lemmas Spu.Lemmas.T Spu.Model.Con

variable {R : Type}

theorem fullIndex_eq (idx : List ℕ) (n : ℕ) : fullIndex idx n = idx ++ others idx [] n := by simp [fullIndex, others]

/-- `tensordot` is the contraction without batch -/
theorem c75_tensordot [CommRing R] {ix iy : List ℕ} {x y : Ten R} (h : DotDims [] [] ix iy x.shape y.shape) :
    ∃ z, tensordot ix iy x y = some z ∧
      z.shape = permuted (others [] ix x.shape.length) x.shape ++ permuted (others [] iy y.shape.length) y.shape ∧
      ∀ p q, InB p (permuted (others [] ix x.shape.length) x.shape) → InB q (permuted (others [] iy y.shape.length) y.shape) →
        z.get (p ++ q) = dotAt [] [] ix iy x.shape y.shape x.get y.get [] p q := by
  have hlen : ix.length = iy.length := by simpa [permuted] using congrArg List.length h.contract
  have ox : others ix [] x.shape.length = others [] ix x.shape.length := by simp [others]
  have oy : others iy [] y.shape.length = others [] iy y.shape.length := by simp [others]
  have hpx := order_perm h.lnodup h.lrange
  have hpy := order_perm h.rnodup h.rrange
  rw [List.nil_append] at hpx hpy
  obtain ⟨l1, l2, l3⟩ := perm_facts (List.perm_append_comm.trans hpx)
  obtain ⟨r1, r2, r3⟩ := perm_facts hpy
  obtain ⟨l, t1, t2, t3⟩ := transpose_spec x l1 l2 fun a => (l3 a).1
  obtain ⟨r, u1, u2, u3⟩ := transpose_spec y r1 r2 fun a => (r3 a).1
  unfold tensordot
  rw [if_neg (by simpa using hlen)]
  simp only [fullIndex_eq, ox, oy, List.drop_left, List.take_left, t1, u1, Option.bind_eq_bind, Option.bind_some]
  rw [permuted_append] at t2 u2
  rw [← h.contract] at u2
  have lC := permuted_length ix x.shape
  unfold dotAt
  simp only [List.nil_append]
  have k1 : l.shape.take (l.shape.length - ix.length) = permuted (others [] ix x.shape.length) x.shape := by
    rw [t2]; exact List.take_left' (by simp only [List.length_append, permuted_length]; omega)
  have k2 : l.shape.drop (l.shape.length - ix.length) = permuted ix x.shape := by
    rw [t2]; exact List.drop_left' (by simp only [List.length_append, permuted_length]; omega)
  have k3 : r.shape.take ix.length = permuted ix x.shape := by rw [u2]; exact List.take_left' lC
  have k4 : r.shape.drop ix.length = permuted (others [] iy y.shape.length) y.shape := by rw [u2]; exact List.drop_left' lC
  rw [k1, k2, k3, k4]
  obtain ⟨a, b, z, w, w1, w2, w3, w4, w5, w6⟩ := mm_spec t2 u2
  refine ⟨w, by simp only [w1, w2, w3, w4, Option.bind_some], w5, fun p q hp hq => ?_⟩
  rw [w6 p q hp hq]
  simp only [t3, u3]

theorem sum_allIdx_cons [CommRing R] (d : ℕ) (ds : List ℕ) (f : List ℕ → R) : ((allIdx (d :: ds)).map f).sum =
    ((List.range d).map fun i => ((allIdx ds).map fun r => f (i :: r)).sum).sum := by
  simp only [allIdx]
  generalize List.range d = l
  induction l with
  | nil => rfl
  | cons a l ih => rw [List.flatMap_cons, List.map_append, List.sum_append, ih, List.map_map]; rfl

theorem sum_allIdx3 [CommRing R] (h w C : ℕ) (f : List ℕ → R) : ((allIdx [h, w, C]).map f).sum =
    ((List.range h).map fun i => ((List.range w).map fun j => ((List.range C).map fun c => f [i, j, c]).sum).sum).sum := by
  simp only [sum_allIdx_cons]
  simp [allIdx]

theorem concat1_spec {α : Type} {l : List (Ten α)} (hl : l ≠ []) {n : ℕ} {sh : List ℕ} (hs : ∀ u ∈ l, u.shape = n :: 1 :: sh) :
    ∃ r, concat1 l = some r ∧ r.shape = n :: l.length :: sh ∧
      ∀ k (hk : k < l.length) a i, r.get (a :: k :: i) = l[k].get (a :: 0 :: i) := by
  cases l with
  | nil => exact absurd rfl hl
  | cons t ts =>
    have h1 := hs t (by simp)
    obtain ⟨tsh, tg⟩ := t
    simp only at h1
    subst h1
    unfold concat1
    simp only
    rw [if_pos (by simpa using fun u hu => hs u (by simp [hu]))]
    refine ⟨_, rfl, by simp, fun k hk a i => ?_⟩
    simp only [List.getD_cons_succ, List.getD_cons_zero, Nat.div_one, Nat.mod_one, List.drop_succ_cons, List.drop_zero]
    rw [List.getD_eq_getElem?_getD, List.getElem?_eq_getElem hk, Option.getD_some]

theorem flat_pairs (hh ww sh sw : ℕ) : ((List.range hh).flatMap fun a => (List.range ww).map fun b => (a * sh, b * sw)) =
    (allIdx [hh, ww]).map fun i => (i.getD 0 0 * sh, i.getD 1 0 * sw) := by
  simp [allIdx, List.map_flatMap, Function.comp_def, List.flatMap_map, ← List.map_eq_flatMap]

theorem window_fits {a H h s : ℕ} (hs : 0 < s) (hh : h ≤ H) (ha : a < (H - h) / s + 1) : a * s + h ≤ H := by
  have := Nat.mul_le_mul_right s (Nat.lt_succ_iff.1 ha)
  have := Nat.div_mul_le_self (H - h) s
  omega

/-- `Convolution2D` computes the convolution -/
theorem c75_conv2d [CommRing R] {x k : Ten R} {N H W C h w O sh sw : ℕ} (hx : x.shape = [N, H, W, C]) (hk : k.shape = [h, w, C, O])
    (hsh : 0 < sh) (hsw : 0 < sw) (hh : h ≤ H) (hw : w ≤ W) :
    ∃ z, conv2d sh sw [N, (H - h) / sh + 1, (W - w) / sw + 1, O] x k = some z ∧
      z.shape = [N, (H - h) / sh + 1, (W - w) / sw + 1, O] ∧
      ∀ n a b o, n < N → a < (H - h) / sh + 1 → b < (W - w) / sw + 1 → o < O →
        z.get [n, a, b, o] = convAt sh sw h w C (fun n a b c => x.get [n, a, b, c]) (fun i j c o => k.get [i, j, c, o]) n a b o := by
  have hA := fun a (ha : a < (H - h) / sh + 1) => window_fits hsh hh ha
  have hB := fun b (hb : b < (W - w) / sw + 1) => window_fits hsw hw hb
  unfold conv2d
  rw [hx, hk]
  simp only
  rw [if_pos ⟨trivial, trivial, trivial, hsh, hsw, hh, hw, trivial, trivial⟩]
  have hp1 : 0 < (H - h) / sh + 1 := Nat.succ_pos _
  have hp2 : 0 < (W - w) / sw + 1 := Nat.succ_pos _
  generalize (H - h) / sh + 1 = hh' at *
  generalize (W - w) / sw + 1 = ww' at *
  have hu : ∀ i, InB i [hh', ww'] → ∃ u, (do
      let win ← x.slice [0, i.getD 0 0 * sh, i.getD 1 0 * sw, 0] [N, i.getD 0 0 * sh + h, i.getD 1 0 * sw + w, C] [1, 1, 1, 1]
      win.reshape [N, 1, h, w, C] : Option (Ten R)) = some u ∧ u.shape = [N, 1, h, w, C] ∧ ∀ n p q c, n < N → p < h → q < w → c < C →
        u.get [n, 0, p, q, c] = x.get [n, i.getD 0 0 * sh + p, i.getD 1 0 * sw + q, c] := by
    intro i hi
    obtain ⟨h1, h2⟩ := InB_iff.1 hi
    have ha := hA _ (by simpa using h2 0 (by simp))
    have hb := hB _ (by simpa using h2 1 (by simp))
    have hs : ∃ l, x.slice [0, i.getD 0 0 * sh, i.getD 1 0 * sw, 0] [N, i.getD 0 0 * sh + h, i.getD 1 0 * sw + w, C] [1, 1, 1, 1] =
        some l ∧ l.shape = [N, h, w, C] ∧ ∀ n p q c, l.get [n, p, q, c] = x.get [n, i.getD 0 0 * sh + p, i.getD 1 0 * sw + q, c] := by
      unfold Ten.slice
      rw [hx, if_pos ⟨by simp only [Ten.fits, Bool.and_eq_true, decide_eq_true_eq]; exact ⟨le_refl _, ha, hb, le_refl _, trivial⟩,
        rfl, rfl, by simp⟩]
      exact ⟨_, rfl, by simp [sliceShape], fun n p q c => by simp [affine]⟩
    obtain ⟨l, l1, l2, l3⟩ := hs
    obtain ⟨u, u1⟩ := reshape_isSome (t := l) (sh := [N, 1, h, w, C]) (by rw [l2]; simp [size])
    obtain ⟨u2, u3⟩ := reshape_spec u1
    refine ⟨u, by simp only [l1, Option.bind_eq_bind, Option.bind_some, u1], u2, fun n p q c hn hp hq hc => ?_⟩
    rw [u3 [n, 0, p, q, c] [n, p, q, c] (.cons hn (.cons (by omega) (.cons hp (.cons hq (.cons hc .nil)))))
      (by rw [l2]; exact .cons hn (.cons hp (.cons hq (.cons hc .nil)))) (by rw [l2]; simp [pos, size]), l3]
  classical
  let g : List ℕ → Ten R := fun i => if hi : InB i [hh', ww'] then (hu i hi).choose else x
  have hg : ∀ i (hi : InB i [hh', ww']), g i = (hu i hi).choose := fun i hi => by simp only [g]; rw [dif_pos hi]
  have hmm : (List.mapM (fun (p : ℕ × ℕ) => (do
        let win ← x.slice [0, p.1, p.2, 0] [N, p.1 + h, p.2 + w, C] [1, 1, 1, 1]
        win.reshape [N, 1, h, w, C] : Option (Ten R)))
      ((List.range hh').flatMap fun a => (List.range ww').map fun b => (a * sh, b * sw))) = some ((allIdx [hh', ww']).map g) := by
    rw [flat_pairs, List.mapM_map]
    exact mapM_some _ _ g (by
      intro i hi
      have hi := mem_allIdx.1 hi
      rw [hg i hi]; exact (hu i hi).choose_spec.1)
  rw [hmm]
  have hlen : ((allIdx [hh', ww']).map g).length = hh' * ww' := by rw [List.length_map, length_allIdx]; simp [size]
  obtain ⟨s, s1, s2, s3⟩ := concat1_spec (l := (allIdx [hh', ww']).map g) (n := N) (sh := [h, w, C])
    (by intro h0; rw [h0] at hlen; have := Nat.mul_pos hp1 hp2; simp at hlen; omega) (by
      intro u hu'
      obtain ⟨i, hi, rfl⟩ := List.mem_map.1 hu'
      have hi := mem_allIdx.1 hi
      rw [hg i hi]; exact (hu i hi).choose_spec.2.1)
  rw [hlen] at s2
  obtain ⟨e, e1⟩ := reshape_isSome (t := s) (sh := [N, hh' * ww', h * w, C]) (by rw [s2]; simp only [size]; ring)
  obtain ⟨e2, e3⟩ := reshape_spec e1
  obtain ⟨f, f1⟩ := reshape_isSome (t := e) (sh := [N, hh', ww', h, w, C]) (by rw [e2]; simp only [size]; ring)
  obtain ⟨f2, f3⟩ := reshape_spec f1
  have hd : DotDims [] [] [3, 4, 5] [0, 1, 2] f.shape k.shape := by
    constructor <;> (try rw [f2]) <;> (try rw [hk]) <;> simp [permuted]
  obtain ⟨z, z1, z2, z3⟩ := c75_tensordot hd
  have o1 : others [] [3, 4, 5] f.shape.length = [0, 1, 2] := by rw [f2]; rfl
  have o2 : others [] [0, 1, 2] k.shape.length = [3] := by rw [hk]; rfl
  refine ⟨z, by simp only [Option.bind_eq_bind, Option.bind_some, s1, e1, f1, z1], ?_, fun n a b o hn ha hb ho => ?_⟩
  · rw [z2, o1, o2, f2, hk]; simp [permuted]
  rw [o1, o2, f2, hk] at z3
  have := z3 [n, a, b] [o] (by simpa [permuted] using InB_triple hn ha hb) (by simpa [permuted] using InB_single ho)
  simp only [List.cons_append, List.nil_append] at this
  rw [this]
  unfold dotAt
  have o3 : others [] [3, 4, 5] 6 = [0, 1, 2] := rfl
  have o4 : others [] [0, 1, 2] 4 = [3] := rfl
  have o5 : permuted [3, 4, 5] [N, hh', ww', h, w, C] = [h, w, C] := by simp [permuted]
  simp only [List.length_cons, List.length_nil, Nat.zero_add, Nat.reduceAdd, o3, o4, o5, List.nil_append]
  rw [sum_allIdx3]
  unfold convAt
  congr 1
  apply List.map_congr_left
  intro i hi
  congr 1
  apply List.map_congr_left
  intro j hj
  congr 1
  apply List.map_congr_left
  intro c hc
  have hi := List.mem_range.1 hi
  have hj := List.mem_range.1 hj
  have hc := List.mem_range.1 hc
  have q1 : placed ([0, 1, 2] ++ [3, 4, 5]) ([n, a, b] ++ [i, j, c]) = [n, a, b, i, j, c] := placed_range' (n := 6) rfl
  have q2 : placed ([0, 1, 2] ++ [3]) ([i, j, c] ++ [o]) = [i, j, c, o] := placed_range' (n := 4) rfl
  rw [q1, q2]
  congr 1
  have hab : a * ww' + b < hh' * ww' := by
    have := Nat.mul_le_mul_right ww' (Nat.succ_le_of_lt ha)
    rw [Nat.succ_mul] at this; omega
  have hij : i * w + j < h * w := by
    have := Nat.mul_le_mul_right w (Nat.succ_le_of_lt hi)
    rw [Nat.succ_mul] at this; omega
  have hI := InB_pair ha hb
  rw [f3 [n, a, b, i, j, c] [n, a * ww' + b, i * w + j, c]
      (.cons hn (.cons ha (.cons hb (.cons hi (.cons hj (.cons hc .nil))))))
      (by rw [e2]; exact .cons hn (.cons hab (.cons hij (.cons hc .nil)))) (by rw [e2]; simp only [pos, size]; ring),
    e3 [n, a * ww' + b, i * w + j, c] [n, a * ww' + b, i, j, c] (.cons hn (.cons hab (.cons hij (.cons hc .nil))))
      (by rw [s2]; exact .cons hn (.cons hab (.cons hi (.cons hj (.cons hc .nil))))) (by rw [s2]; simp only [pos, size]; ring),
    s3 (a * ww' + b) (by rw [hlen]; exact hab)]
  have hel : (allIdx [hh', ww'])[a * ww' + b]? = some [a, b] := by rw [← getElem_allIdx hI, pos_pair]
  have hel' : ((allIdx [hh', ww']).map g)[a * ww' + b]'(by rw [hlen]; exact hab) = g [a, b] := by
    rw [List.getElem_map]
    congr 1
    rw [List.getElem?_eq_some_iff] at hel
    exact hel.2
  rw [hel', hg _ hI, (hu _ hI).choose_spec.2.2 n i j c hn hi hj hc]
  simp

/-- a result type of another shape is refused -/
theorem c75_conv2d_shape [CommRing R] {x k z : Ten R} {N H W C h w C' O sh sw : ℕ} {ret : List ℕ} (hx : x.shape = [N, H, W, C])
    (hk : k.shape = [h, w, C', O]) (hz : conv2d sh sw ret x k = some z) :
    C' = C ∧ h ≤ H ∧ w ≤ W ∧ 0 < sh ∧ 0 < sw ∧ ret = [N, (H - h) / sh + 1, (W - w) / sw + 1, O] := by
  unfold conv2d at hz
  rw [hx, hk] at hz
  split at hz
  · rename_i e1 e2
    cases e1; cases e2
    split at hz
    · rename_i hc
      obtain ⟨c1, c2, c3, c4, c5, c6, c7, c8, c9⟩ := hc
      subst c1 c2 c3 c8 c9
      exact ⟨rfl, c6, c7, c4, c5, rfl⟩
    · cases hz
  · cases hz

/-- one spatial dimension -/
theorem c75_conv1d [CommRing R] {x k : Ten R} {N W C w O s : ℕ} (hx : x.shape = [N, W, C]) (hk : k.shape = [w, C, O])
    (hs : 0 < s) (hw : w ≤ W) :
    ∃ z, conv1d s [N, (W - w) / s + 1, O] x k = some z ∧ z.shape = [N, (W - w) / s + 1, O] ∧
      ∀ n b o, n < N → b < (W - w) / s + 1 → o < O → z.get [n, b, o] =
        ((List.range w).map fun j => ((List.range C).map fun c => x.get [n, b * s + j, c] * k.get [j, c, o]).sum).sum := by
  obtain ⟨x', x1⟩ := reshape_isSome (t := x) (sh := [N, 1, W, C]) (by rw [hx]; simp [size])
  obtain ⟨x2, x3⟩ := reshape_spec x1
  obtain ⟨k', k1⟩ := reshape_isSome (t := k) (sh := [1, w, C, O]) (by rw [hk]; simp [size])
  obtain ⟨k2, k3⟩ := reshape_spec k1
  obtain ⟨z, z1, z2, z3⟩ := c75_conv2d x2 k2 (sh := 1) (sw := s) (by omega) hs (le_refl 1) hw
  have e1 : (1 - 1) / 1 + 1 = 1 := rfl
  rw [e1] at z1 z2 z3
  obtain ⟨r, r1⟩ := reshape_isSome (t := z) (sh := [N, (W - w) / s + 1, O]) (by rw [z2]; simp [size])
  obtain ⟨r2, r3⟩ := reshape_spec r1
  have hb' := fun b (hb : b < (W - w) / s + 1) => window_fits hs hw hb
  generalize (W - w) / s + 1 = ww at *
  unfold conv1d
  rw [hx, hk]
  refine ⟨r, by simp only [x1, k1, z1, r1, Option.bind_eq_bind, Option.bind_some], r2, fun n b o hn hb ho => ?_⟩
  have hb'' := hb' b hb
  rw [r3 [n, b, o] [n, 0, b, o] (InB_triple hn hb ho) (by rw [z2]; exact .cons hn (.cons (by omega) (.cons hb (.cons ho .nil))))
    (by rw [z2]; simp [pos, size]), z3 n 0 b o hn (by omega) hb ho]
  unfold convAt
  rw [List.range_one, List.map_singleton, List.sum_singleton]
  congr 1
  apply List.map_congr_left
  intro j hj
  congr 1
  apply List.map_congr_left
  intro c hc
  have hj := List.mem_range.1 hj
  have hc := List.mem_range.1 hc
  beta_reduce
  rw [x3 [n, 0 * 1 + 0, b * s + j, c] [n, b * s + j, c] (.cons hn (.cons (by omega) (.cons (by omega) (.cons hc .nil))))
      (by rw [hx]; exact InB_triple hn (by omega) hc) (by rw [hx]; simp [pos, size]),
    k3 [0, j, c, o] [j, c, o] (.cons (by omega) (.cons hj (.cons hc (.cons ho .nil)))) (by rw [hk]; exact InB_triple hj hc ho)
      (by rw [hk]; simp [pos, size])]

theorem inversePerm_facts {p : List ℕ} {n : ℕ} (h : p.Perm (List.range n)) : (inversePerm p).length = n ∧ (inversePerm p).Nodup ∧
    ∀ a, a ∈ inversePerm p ↔ a < n := by
  obtain ⟨h1, h2, h3⟩ := perm_facts h
  have hn : (inversePerm p).Nodup := by
    refine List.Nodup.map_on ?_ List.nodup_range
    intro a ha b hb e
    rw [h1] at ha hb
    have ha := (h3 a).2 (List.mem_range.1 ha)
    have hb := (h3 b).2 (List.mem_range.1 hb)
    exact (List.idxOf_inj ha).1 e
  have hl : (inversePerm p).length = n := by simp [inversePerm, h1]
  have hlt : ∀ a ∈ inversePerm p, a < n := by
    intro a ha
    obtain ⟨b, hb, rfl⟩ := List.mem_map.1 ha
    rw [h1] at hb
    rw [← h1]; exact List.idxOf_lt_length_iff.2 ((h3 b).2 (List.mem_range.1 hb))
  refine ⟨hl, hn, fun a => ⟨hlt a, fun ha => ?_⟩⟩
  have hs : (inversePerm p).Subperm (List.range n) := List.subperm_of_subset hn fun a ha => List.mem_range.2 (hlt a ha)
  exact (hs.perm_of_length_le (by simp [hl])).mem_iff.2 (List.mem_range.2 ha)

theorem permuted_inversePerm (p v : List ℕ) : permuted (inversePerm p) v = unperm p v := by
  simp [permuted, inversePerm, unperm, Function.comp_def]

theorem placed_inversePerm {p i : List ℕ} {n : ℕ} (h : p.Perm (List.range n)) (hi : i.length = n) :
    placed (inversePerm p) i = permuted p i := by
  obtain ⟨h1, h2, h3⟩ := perm_facts h
  obtain ⟨k1, k2, k3⟩ := inversePerm_facts h
  have e : permuted (inversePerm p) (permuted p i) = i := by
    rw [permuted_inversePerm]
    exact unperm_permuted (fun a ha => (h3 a).2 (by omega)) (by omega)
  conv_lhs => rw [← e]
  exact unperm_permuted (fun a ha => (k3 a).2 (by omega)) (by rw [permuted_length]; omega)

theorem transpose_or [CommRing R] (x : Ten R) {io : List ℕ} (h : io.Perm (List.range 4)) {A B C D : ℕ} (hl : x.shape.length = 4)
    (hx : permuted io x.shape = [A, B, C, D]) :
    ∃ x', (if io = List.range 4 then some x else x.transpose io : Option (Ten R)) = some x' ∧ x'.shape = [A, B, C, D] ∧
      ∀ i, i.length = 4 → x'.get i = x.get (placed io i) := by
  obtain ⟨h1, h2, h3⟩ := perm_facts h
  split
  · rename_i e
    refine ⟨x, rfl, ?_, fun i hi => ?_⟩
    · rw [← hx, e, ← hl, permuted_range]
    · rw [e, placed_range' hi]
  · obtain ⟨r, r1, r2, r3⟩ := transpose_spec x (perm := io) (by omega) h2 fun a ha => by rw [hl]; exact (h3 a).1 ha
    exact ⟨r, r1, by rw [r2, hx], fun i _ => r3 i⟩

/-- convolution with any order of the dimensions, unless only the output deviates from the standard order -/
theorem c75_convolution [CommRing R] {x k : Ten R} {io ko oo ret : List ℕ} {N H W C h w O sh sw : ℕ}
    (hio : io.Perm (List.range 4)) (hko : ko.Perm (List.range 4)) (hoo : oo.Perm (List.range 4))
    (hxl : x.shape.length = 4) (hkl : k.shape.length = 4) (hrl : ret.length = 4)
    (hx : permuted io x.shape = [N, H, W, C]) (hk : permuted ko k.shape = [h, w, C, O])
    (hr : permuted oo ret = [N, (H - h) / sh + 1, (W - w) / sw + 1, O])
    (hsh : 0 < sh) (hsw : 0 < sw) (hh : h ≤ H) (hw : w ≤ W)
    (hstd : io = List.range 4 → ko = List.range 4 → oo = List.range 4) :
    ∃ z, convolution sh sw io ko oo ret x k = some z ∧ z.shape = ret ∧ ∀ i n a b o, InB i ret → permuted oo i = [n, a, b, o] →
      z.get i = convAt sh sw h w C (fun n a b c => x.get (placed io [n, a, b, c])) (fun p q c o => k.get (placed ko [p, q, c, o]))
        n a b o := by
  obtain ⟨o1, o2, o3⟩ := perm_facts hoo
  have hbnd : ∀ {i n a b o}, InB i ret → permuted oo i = [n, a, b, o] →
      n < N ∧ a < (H - h) / sh + 1 ∧ b < (W - w) / sw + 1 ∧ o < O := by
    intro i n a b o hi e
    have := InB_permuted hi (p := oo) fun a ha => by rw [hrl]; exact (o3 a).1 ha
    rw [e, hr] at this
    cases this with | cons h1 t => cases t with | cons h2 t => cases t with | cons h3 t => cases t with | cons h4 t => exact ⟨h1, h2, h3, h4⟩
  obtain ⟨x', x1, x2, x3⟩ := transpose_or x hio hxl hx
  obtain ⟨k', k1, k2, k3⟩ := transpose_or k hko hkl hk
  obtain ⟨z, z1, z2, z3⟩ := c75_conv2d x2 k2 hsh hsw hh hw
  have hcong : ∀ n a b o, convAt sh sw h w C (fun n a b c => x'.get [n, a, b, c]) (fun i j c o => k'.get [i, j, c, o]) n a b o =
      convAt sh sw h w C (fun n a b c => x.get (placed io [n, a, b, c])) (fun p q c o => k.get (placed ko [p, q, c, o])) n a b o := by
    intro n a b o
    have e1 : (fun n a b c => x'.get [n, a, b, c]) = fun n a b c => x.get (placed io [n, a, b, c]) := by
      funext n a b c; exact x3 _ rfl
    have e2 : (fun i j c o => k'.get [i, j, c, o]) = fun p q c o => k.get (placed ko [p, q, c, o]) := by
      funext p q c o; exact k3 _ rfl
    rw [e1, e2]
  unfold convolution
  split
  · rename_i hc
    have hs := hstd hc.1 hc.2
    rw [if_pos hc.1] at x1
    rw [if_pos hc.2] at k1
    cases x1; cases k1
    have hret : ret = [N, (H - h) / sh + 1, (W - w) / sw + 1, O] := by rw [← hr, hs, ← hrl, permuted_range]
    rw [hret]
    refine ⟨z, z1, z2, fun i n a b o hi e => ?_⟩
    obtain ⟨b1, b2, b3, b4⟩ := hbnd (hret ▸ hi) e
    have hi' : i = [n, a, b, o] := by
      have hl : i.length = 4 := by simpa using InB.length hi
      rw [← e, hs, ← hl, permuted_range]
    rw [hi', z3 n a b o b1 b2 b3 b4, hcong]
  · rw [x1, k1, hr]
    simp only [Option.bind_eq_bind, Option.bind_some, z1]
    obtain ⟨i1, i2, i3⟩ := inversePerm_facts hoo
    have hzl : z.shape.length = 4 := by rw [z2]; rfl
    obtain ⟨y, y1, y2, y3⟩ := transpose_spec z (perm := inversePerm oo) (by omega) i2 fun a ha => by rw [hzl]; exact (i3 a).1 ha
    refine ⟨y, y1, ?_, fun i n a b o hi e => ?_⟩
    · rw [y2, z2, ← hr, permuted_inversePerm]
      exact unperm_permuted (fun a ha => (o3 a).2 (by omega)) (by omega)
    · obtain ⟨b1, b2, b3, b4⟩ := hbnd hi e
      rw [y3, placed_inversePerm hoo (by rw [InB.length hi, hrl]), e, z3 n a b o b1 b2 b3 b4, hcong]

/-- when only the output deviates from the standard order its dimension numbers are ignored: with as many output features as batch
entries the result is silently wrong -/
theorem c75_convolution_output_order : ∃ (x k z : Ten ℤ) (oo ret : List ℕ), oo.Perm (List.range 4) ∧
    x.shape = [2, 1, 1, 1] ∧ k.shape = [1, 1, 1, 2] ∧ permuted oo ret = [2, 1, 1, 2] ∧
    convolution 1 1 (List.range 4) (List.range 4) oo ret x k = some z ∧ z.shape = ret ∧
    ∃ i n a b o, InB i ret ∧ permuted oo i = [n, a, b, o] ∧
      z.get i ≠ convAt 1 1 1 1 1 (fun n a b c => x.get [n, a, b, c]) (fun p q c o => k.get [p, q, c, o]) n a b o := by
  obtain ⟨z, z1, z2, z3⟩ := c75_conv2d (x := ⟨[2, 1, 1, 1], fun i => if i.getD 0 0 = 0 then 1 else 10⟩)
    (k := ⟨[1, 1, 1, 2], fun i => if i.getD 3 0 = 0 then (2 : ℤ) else 3⟩) rfl rfl (sh := 1) (sw := 1) (by omega) (by omega)
    (le_refl 1) (le_refl 1)
  refine ⟨⟨[2, 1, 1, 1], fun i => if i.getD 0 0 = 0 then 1 else 10⟩, ⟨[1, 1, 1, 2], fun i => if i.getD 3 0 = 0 then (2 : ℤ) else 3⟩, z,
    [3, 1, 2, 0], [2, 1, 1, 2], by decide, rfl, rfl, rfl, ?_, z2, [0, 0, 0, 1], 1, 0, 0, 0, ?_, rfl, ?_⟩
  · unfold convolution; rw [if_pos ⟨rfl, rfl⟩]; exact z1
  · exact .cons (by omega) (.cons (by omega) (.cons (by omega) (.cons (by omega) .nil)))
  · rw [z3 0 0 0 1 (by omega) (by omega) (by omega) (by omega)]
    decide

-- a 3×3 image, a 2×2 kernel, stride 1; and channels first
example : (conv2d 1 1 [1, 2, 2, 1] (⟨[1, 3, 3, 1], fun i => (pos i [1, 3, 3, 1] : ℤ)⟩) ⟨[2, 2, 1, 1], fun i => pos i [2, 2, 1, 1] + 1⟩).map
    (fun z => (z.shape, (allIdx z.shape).map z.get)) = some ([1, 2, 2, 1], [27, 37, 57, 67]) := by decide +kernel
example : (convolution 1 2 [0, 2, 3, 1] [2, 3, 1, 0] [0, 2, 3, 1] [1, 2, 1, 2] (⟨[1, 1, 2, 4], fun i => (pos i [1, 1, 2, 4] : ℤ)⟩)
    ⟨[2, 1, 1, 2], fun i => pos i [2, 1, 1, 2] + 1⟩).map (fun z => (z.shape, (allIdx z.shape).map z.get)) = none := by decide +kernel
example : (convolution 1 2 [0, 2, 3, 1] [2, 3, 1, 0] [0, 2, 3, 1] [1, 2, 2, 2] (⟨[1, 1, 2, 4], fun i => (pos i [1, 1, 2, 4] : ℤ)⟩)
    ⟨[2, 1, 1, 2], fun i => pos i [2, 1, 1, 2] + 1⟩).map (fun z => (z.shape, (allIdx z.shape).map z.get)) =
      some ([1, 2, 2, 2], [2, 8, 14, 20, 4, 18, 32, 46]) := by decide +kernel

end Spu.Props

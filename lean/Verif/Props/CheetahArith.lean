import Verif.Model.CheetahArith
import Verif.Spec.CheetahArith
import Verif.Props.CheetahMul

set_option autoImplicit false

/-!
C60: Cheetah's multiplication kernels, the cache of triples and the tiling of transfer-based kernels.
-/

namespace Spu.Props

open Spu.Model.Ms Spu.Model.Cmul Spu.Model.Carith Spu.Spec.Ms Spu.Spec.Cmul Spu.Spec.Carith

/-! ## Elements -/

section
variable {k : ℕ}

theorem caZip (f : ℕ → ℕ → ℕ) (g : ZMod (2 ^ k) → ZMod (2 ^ k) → ZMod (2 ^ k)) (g0 : g 0 0 = 0)
    (hg : ∀ x y, ((f x y : ℕ) : ZMod (2 ^ k)) = g x y) {a b : List ℕ} (h : a.length = b.length) (i : ℕ) :
    el k (List.zipWith f a b) i = g (el k a i) (el k b i) := by
  unfold el
  by_cases hi : i < a.length
  · have hb : i < b.length := h ▸ hi
    rw [List.getD_eq_getElem _ _ (by simp [hi, hb]), List.getD_eq_getElem _ _ hi, List.getD_eq_getElem _ _ hb,
      List.getElem_zipWith, hg]
  · rw [List.getD_eq_default _ _ (by simp; omega), List.getD_eq_default _ _ (by omega),
      List.getD_eq_default _ _ (by omega)]
    simp [g0]

theorem el_radd {a b : List ℕ} (h : a.length = b.length) (i : ℕ) : el k (radd k a b) i = el k a i + el k b i :=
  caZip _ (· + ·) (by simp) (fun x y => by rw [cast_mod_pow le_rfl]; push_cast; rfl) h i

theorem el_rmul {a b : List ℕ} (h : a.length = b.length) (i : ℕ) : el k (rmul k a b) i = el k a i * el k b i :=
  caZip _ (· * ·) (by simp) (fun x y => by rw [cast_mod_pow le_rfl]; push_cast; rfl) h i

theorem el_rsub {a b : List ℕ} (h : a.length = b.length) (i : ℕ) : el k (rsub k a b) i = el k a i - el k b i :=
  caZip _ (· - ·) (by simp) (fun x y => by
    rw [cast_mod_pow le_rfl, Nat.cast_add, cast_sub_pow le_rfl (Nat.mod_lt _ (by positivity)).le, cast_mod_pow le_rfl]
    ring) h i

theorem radd_length (a b : List ℕ) : (radd k a b).length = min a.length b.length := List.length_zipWith
theorem rsub_length (a b : List ℕ) : (rsub k a b).length = min a.length b.length := List.length_zipWith
theorem rmul_length (a b : List ℕ) : (rmul k a b).length = min a.length b.length := List.length_zipWith

theorem caZipRing (f : ℕ → ℕ → ℕ) (hf : ∀ x y, f x y < 2 ^ k) (a b : List ℕ) : InRing k (List.zipWith f a b) := by
  intro v hv
  obtain ⟨i, hi, rfl⟩ := List.mem_iff_getElem.1 hv
  rw [List.getElem_zipWith]
  exact hf _ _

theorem radd_ring (a b : List ℕ) : InRing k (radd k a b) := caZipRing _ (fun _ _ => Nat.mod_lt _ (by positivity)) a b

theorem slice_length {α : Type} (l : List α) (p q : ℕ) : (slice l p q).length = min q l.length - p := by
  simp [slice]

theorem slice_sub {α : Type} (l : List α) (p q : ℕ) : slice l p q ⊆ l := fun _ h =>
  List.mem_of_mem_take (List.mem_of_mem_drop h)

theorem slice_ring {l : List ℕ} (h : InRing k l) (p q : ℕ) : InRing k (slice l p q) := fun v hv => h v (slice_sub l p q hv)

theorem el_slice {l : List ℕ} {p q i : ℕ} (h : p + i < q) : el k (slice l p q) i = el k l (p + i) := by
  unfold el slice
  rw [List.getD_eq_getElem?_getD, List.getD_eq_getElem?_getD, List.getElem?_drop, List.getElem?_take, if_pos h]

theorem el_append_left {a b : List ℕ} {i : ℕ} (h : i < a.length) : el k (a ++ b) i = el k a i := by
  unfold el; rw [List.getD_append _ _ _ _ h]

theorem el_append_right {a b : List ℕ} {i : ℕ} (h : a.length ≤ i) : el k (a ++ b) i = el k b (i - a.length) := by
  unfold el; rw [List.getD_append_right _ _ _ _ h]

theorem append_ring {a b : List ℕ} (ha : InRing k a) (hb : InRing k b) : InRing k (a ++ b) := fun v hv =>
  (List.mem_append.1 hv).elim (ha v) (hb v)

end

theorem sharesAppend {k : ℕ} {ε : ℤ} {n m : ℕ} {a0 a1 b0 b1 : List ℕ} {w w' : ℕ → ZMod (2 ^ k)}
    (h : Shares k ε n a0 a1 w) (h' : Shares k ε m b0 b1 fun i => w' (n + i)) (hw : ∀ i, i < n → w i = w' i) :
    Shares k ε (n + m) (a0 ++ b0) (a1 ++ b1) w' := by
  obtain ⟨l0, l1, r0, r1, e⟩ := h
  obtain ⟨l0', l1', r0', r1', e'⟩ := h'
  refine ⟨by simp [l0, l0'], by simp [l1, l1'], append_ring r0 r0', append_ring r1 r1', fun i hi => ?_⟩
  by_cases c : i < n
  · rw [el_append_left (by omega), el_append_left (by omega), ← hw i c]
    exact e i c
  · rw [el_append_right (by omega), el_append_right (by omega), l0, l1]
    have := e' (i - n) (by omega)
    dsimp only at this
    rwa [show n + (i - n) = i by omega] at this

theorem sharesSlice {k : ℕ} {ε : ℤ} {n : ℕ} {a0 a1 : List ℕ} {w : ℕ → ZMod (2 ^ k)} (h : Shares k ε n a0 a1 w)
    {p q : ℕ} (hq : q ≤ n) : Shares k ε (q - p) (slice a0 p q) (slice a1 p q) fun i => w (p + i) := by
  obtain ⟨l0, l1, r0, r1, e⟩ := h
  refine ⟨by rw [slice_length]; omega, by rw [slice_length]; omega, slice_ring r0 _ _, slice_ring r1 _ _, fun i hi => ?_⟩
  rw [el_slice (by omega), el_slice (by omega)]
  exact e (p + i) (by omega)

theorem sharesCongr {k : ℕ} {ε : ℤ} {n : ℕ} {a0 a1 : List ℕ} {w w' : ℕ → ZMod (2 ^ k)} (h : Shares k ε n a0 a1 w)
    (hw : ∀ i, i < n → w i = w' i) : Shares k ε n a0 a1 w' := by
  obtain ⟨l0, l1, r0, r1, e⟩ := h
  exact ⟨l0, l1, r0, r1, fun i hi => by rw [← hw i hi]; exact e i hi⟩

/-! ## Triples -/

theorem triplesAppend {k : ℕ} {ε : ℤ} {n m : ℕ} {t0 t1 u0 u1 : Triples} (h : TriplesOk k ε n t0 t1)
    (h' : TriplesOk k ε m u0 u1) : TriplesOk k ε (n + m) (t0.1 ++ u0.1, t0.2.1 ++ u0.2.1, t0.2.2 ++ u0.2.2)
      (t1.1 ++ u1.1, t1.2.1 ++ u1.2.1, t1.2.2 ++ u1.2.2) := by
  obtain ⟨a1, a2, a3, a4, a5, a6, a7, a8, a9⟩ := h
  obtain ⟨b1, b2, b3, b4, b5, b6, b7, b8, b9⟩ := h'
  refine ⟨by simp [a1, b1], by simp [a2, b2], by simp [a3, b3], by simp [a4, b4], append_ring a5 b5, append_ring a6 b6,
    append_ring a7 b7, append_ring a8 b8, sharesAppend a9 (sharesCongr b9 ?_) ?_⟩
  · intro i hi
    dsimp only
    rw [el_append_right (by omega), el_append_right (by omega), el_append_right (by omega), el_append_right (by omega),
      a1, a2, a3, a4, Nat.add_sub_cancel_left]
  · intro i hi
    dsimp only
    rw [el_append_left (by omega), el_append_left (by omega), el_append_left (by omega), el_append_left (by omega)]

theorem triplesSlice {k : ℕ} {ε : ℤ} {n : ℕ} {t0 t1 : Triples} (h : TriplesOk k ε n t0 t1) {p q : ℕ} (hq : q ≤ n) :
    TriplesOk k ε (q - p) (slice t0.1 p q, slice t0.2.1 p q, slice t0.2.2 p q)
      (slice t1.1 p q, slice t1.2.1 p q, slice t1.2.2 p q) := by
  obtain ⟨a1, a2, a3, a4, a5, a6, a7, a8, a9⟩ := h
  refine ⟨?_, ?_, ?_, ?_, slice_ring a5 _ _, slice_ring a6 _ _, slice_ring a7 _ _, slice_ring a8 _ _,
    sharesCongr (sharesSlice a9 hq) fun i hi => ?_⟩
  all_goals try (rw [slice_length]; omega)
  dsimp only
  rw [el_slice (by omega), el_slice (by omega), el_slice (by omega), el_slice (by omega)]

theorem caSlice_zero {α : Type} (l : List α) (q : ℕ) : slice l 0 q = l.take q := rfl

/-- A batch made from one oblivious product. -/
theorem caBeaver {k : ℕ} {ε : ℤ} {nb : ℕ} {r0 r1 c0 c1 : List ℕ} (h0 : r0.length = nb * 2) (h1 : r1.length = nb * 2)
    (q0 : InRing k r0) (q1 : InRing k r1) (hc : Shares k ε (nb * 2) c0 c1 fun i => el k r0 i * el k r1 i) :
    TriplesOk k (2 * ε) nb (beaver k 0 nb r0 c0) (beaver k 1 nb r1 c1) := by
  obtain ⟨l0, l1, s0, s1, e⟩ := hc
  have sl : ∀ (l : List ℕ), l.length = nb * 2 → (slice l 0 nb).length = nb ∧ (slice l nb (nb * 2)).length = nb ∧
      (slice l nb (2 * nb)).length = nb := fun l hl => by simp only [slice_length]; omega
  obtain ⟨x1, x2, -⟩ := sl r0 h0
  obtain ⟨y1, y2, -⟩ := sl r1 h1
  obtain ⟨z1, -, z2⟩ := sl c0 l0
  obtain ⟨w1, -, w2⟩ := sl c1 l1
  unfold beaver
  simp only [if_true, one_ne_zero, if_false]
  refine ⟨x1, y2, x2, y1, slice_ring q0 _ _, slice_ring q1 _ _, slice_ring q0 _ _, slice_ring q1 _ _, ?_, ?_, radd_ring _ _,
    radd_ring _ _, fun i hi => ?_⟩
  · simp only [radd_length, rmul_length]; omega
  · simp only [radd_length, rmul_length]; omega
  · obtain ⟨e1, b1, f1⟩ := e i (by omega)
    obtain ⟨e2, b2, f2⟩ := e (nb + i) (by omega)
    refine ⟨e1 + e2, (abs_add_le _ _).trans (by linarith), ?_⟩
    dsimp only
    have A0 : (radd k (slice c0 0 nb) (slice c0 nb (2 * nb))).length = (rmul k (slice r0 0 nb) (slice r0 nb (nb * 2))).length := by
      simp only [radd_length, rmul_length]; omega
    have A1 : (radd k (slice c1 0 nb) (slice c1 nb (2 * nb))).length = (rmul k (slice r1 nb (nb * 2)) (slice r1 0 nb)).length := by
      simp only [radd_length, rmul_length]; omega
    rw [el_radd A0, el_radd A1, el_radd (z1.trans z2.symm), el_radd (w1.trans w2.symm), el_rmul (x1.trans x2.symm),
      el_rmul (y2.trans y1.symm)]
    simp only [el_slice (show 0 + i < nb by omega), el_slice (show nb + i < nb * 2 by omega),
      el_slice (show nb + i < 2 * nb by omega), zero_add]
    push_cast
    linear_combination f1 + f2

theorem caTake_len {l : List ℕ} {n : ℕ} (h : l.length = n) : l.take n = l := by rw [← h, List.take_length]

/-- The caches stay in step and good; afterwards they are large enough. -/
theorem c60_makeSure {ε : ℤ} {batch k numel : ℕ} (hb : 0 < batch) (hb2 : 2 ∣ batch) (hn : 0 < numel) {P : Prot}
    (hP : OleOk k ε P) (rand0 rand1 : ℕ → ℕ) {s : Cache × Cache} (hs : CacheOk (2 * ε) s) :
    ∃ s', makeSure batch k numel P rand0 rand1 s = some s' ∧ CacheOk (2 * ε) s' ∧ s'.1.field = some k ∧
      numel ≤ s'.1.size := by
  obtain ⟨h1, h2, h3⟩ := hs
  have heff : s.1.eff k = s.2.eff k := by unfold Cache.eff; rw [h1, h2]
  unfold makeSure
  rw [guard_bind hn]
  by_cases c : numel ≤ s.1.eff k
  · rw [if_pos ⟨c, heff ▸ c⟩]
    have hf : s.1.field = some k := by
      unfold Cache.eff at c
      split_ifs at c with hf
      · exact hf
      · omega
    exact ⟨s, rfl, ⟨h1, h2, h3⟩, hf, by rwa [Cache.eff, if_pos hf] at c⟩
  · rw [if_neg (fun h => c h.1), if_pos ⟨by omega, by omega⟩]
    dsimp only
    set m := cdiv (2 * numel) batch with hm
    have hle : 2 * numel ≤ m * batch := by
      rw [hm, cdiv]
      have := Nat.lt_div_mul_add (a := 2 * numel + batch - 1) hb
      omega
    set nb := m * batch / 2 with hnb
    have e2 : m * batch = nb * 2 := by
      rw [hnb, Nat.div_mul_cancel (hb2.mul_left m)]
    set r0 := (List.range (m * batch)).map fun i => rand0 i % 2 ^ k with hr0
    set r1 := (List.range (m * batch)).map fun i => rand1 i % 2 ^ k with hr1
    have q0 : InRing k r0 := fun v hv => by
      obtain ⟨i, -, rfl⟩ := List.mem_map.1 hv; exact Nat.mod_lt _ (by positivity)
    have q1 : InRing k r1 := fun v hv => by
      obtain ⟨i, -, rfl⟩ := List.mem_map.1 hv; exact Nat.mod_lt _ (by positivity)
    have l0 : r0.length = nb * 2 := by rw [hr0, List.length_map, List.length_range, e2]
    have l1 : r1.length = nb * 2 := by rw [hr1, List.length_map, List.length_range, e2]
    obtain ⟨r, er, hr⟩ := hP r0 r1 (by rw [l0, l1]) (by omega) q0 q1
    rw [l0] at hr
    rw [er, Option.bind_eq_bind, Option.bind_some, guard_bind (by
      simp only [Cache.push]
      omega)]
    refine ⟨_, rfl, ?_, rfl, by simp only [Cache.push]; omega⟩
    have tb := caBeaver l0 l1 q0 q1 hr
    have old : TriplesOk k (2 * ε) (s.1.eff k) (s.1.a.take (s.1.eff k), s.1.b.take (s.1.eff k), s.1.c.take (s.1.eff k))
        (s.2.a.take (s.1.eff k), s.2.b.take (s.1.eff k), s.2.c.take (s.1.eff k)) := by
      by_cases hf : s.1.field = some k
      · have := triplesSlice (h3 k hf) (p := 0) (q := s.1.eff k) (by rw [Cache.eff, if_pos hf])
        rw [Nat.sub_zero] at this
        exact this
      · have : s.1.eff k = 0 := by rw [Cache.eff, if_neg hf]
        rw [this]
        simp only [List.take_zero]
        refine ⟨rfl, rfl, rfl, rfl, ?_, ?_, ?_, ?_, rfl, rfl, ?_, ?_, fun i hi => absurd hi (Nat.not_lt_zero i)⟩ <;>
        · intro v hv; simp at hv
    refine ⟨by simp only [Cache.push]; omega, rfl, ?_⟩
    intro k' hk'
    obtain rfl : k = k' := Option.some.inj hk'
    have := triplesAppend old tb
    obtain ⟨t1, t2, t3, t4, -, -, -, -, t5, t6, -⟩ := tb
    unfold Cache.push
    dsimp only
    rw [← heff, caTake_len t1, caTake_len t2, caTake_len t3, caTake_len t4, caTake_len t5, caTake_len t6]
    exact this

theorem caTakeOne {size numel : ℕ} {l : List ℕ} (h : l.length = size) (hn : numel ≤ size) :
    takeOne size numel l = some (slice l 0 numel, slice l numel size) := by
  unfold takeOne
  rw [guard_bind (by omega)]
  split_ifs with c
  · rw [show slice l numel size = [] from List.eq_nil_of_length_eq_zero (by rw [slice_length]; omega)]
  · rw [guard_bind (by omega)]

/-- Taking triples: both parties get matching triples, and the caches stay in step. -/
theorem c60_takeBeaver {ε : ℤ} {batch k numel : ℕ} (hb : 0 < batch) (hb2 : 2 ∣ batch) (hn : 0 < numel) {P : Prot}
    (hP : OleOk k ε P) (rand0 rand1 : ℕ → ℕ) {s : Cache × Cache} (hs : CacheOk (2 * ε) s) :
    ∃ t s', takeBeaver batch k numel P rand0 rand1 s = some (t, s') ∧ CacheOk (2 * ε) s' ∧
      TriplesOk k (2 * ε) numel t.1 t.2 := by
  obtain ⟨s', e, ⟨h1, h2, h3⟩, hf, hle⟩ := c60_makeSure hb hb2 hn hP rand0 rand1 hs
  have T := h3 k hf
  obtain ⟨a1, a2, a3, a4, -, -, -, -, a5, a6, -⟩ := id T
  unfold takeBeaver Cache.pop
  rw [guard_bind hn, e, Option.bind_eq_bind, Option.bind_some]
  simp only [caTakeOne a1 hle, caTakeOne a3 hle, caTakeOne a5 hle, ← h1, caTakeOne a2 hle, caTakeOne a4 hle,
    caTakeOne a6 hle, Option.bind_eq_bind, Option.bind_some]
  refine ⟨_, _, rfl, ⟨rfl, h2, ?_⟩, ?_⟩
  · intro k' hk'
    obtain rfl : k = k' := Option.some.inj (hf.symm.trans hk')
    exact triplesSlice T le_rfl
  · exact triplesSlice T (p := 0) hle

/-! ## Kernels -/

theorem sharesMono {k : ℕ} {ε ε' : ℤ} {n : ℕ} {a0 a1 : List ℕ} {w : ℕ → ZMod (2 ^ k)} (h : Shares k ε n a0 a1 w)
    (hε : ε ≤ ε') : Shares k ε' n a0 a1 w := by
  obtain ⟨l0, l1, r0, r1, e⟩ := h
  exact ⟨l0, l1, r0, r1, fun i hi => by obtain ⟨e, he, h⟩ := e i hi; exact ⟨e, he.trans hε, h⟩⟩

theorem sharesNil {k : ℕ} (ε : ℤ) (w : ℕ → ZMod (2 ^ k)) : Shares k ε 0 [] [] w :=
  ⟨rfl, rfl, fun v hv => by simp at hv, fun v hv => by simp at hv, fun i hi => absurd hi (Nat.not_lt_zero i)⟩

theorem caCombine {k n : ℕ} {xa yb a b c : List ℕ} (lxa : xa.length = n) (lyb : yb.length = n) (la : a.length = n)
    (lb : b.length = n) (lc : c.length = n) :
    (∀ rank, (combine k rank xa yb (a, b, c)).length = n) ∧ (∀ rank, InRing k (combine k rank xa yb (a, b, c))) ∧
    (∀ i, el k (combine k 0 xa yb (a, b, c)) i =
      el k xa i * el k b i + el k yb i * el k a i + el k c i + el k xa i * el k yb i) ∧
    (∀ i, el k (combine k 1 xa yb (a, b, c)) i = el k xa i * el k b i + el k yb i * el k a i + el k c i) := by
  have m1 : (rmul k xa b).length = n := by rw [rmul_length]; omega
  have m2 : (rmul k yb a).length = n := by rw [rmul_length]; omega
  have m3 : (radd k (rmul k xa b) (rmul k yb a)).length = n := by rw [radd_length]; omega
  have m4 : (radd k (radd k (rmul k xa b) (rmul k yb a)) c).length = n := by rw [radd_length]; omega
  have m5 : (rmul k xa yb).length = n := by rw [rmul_length]; omega
  have e : ∀ i, el k (radd k (radd k (rmul k xa b) (rmul k yb a)) c) i =
      el k xa i * el k b i + el k yb i * el k a i + el k c i := fun i => by
    rw [el_radd (m3.trans lc.symm), el_radd (m1.trans m2.symm), el_rmul (lxa.trans lb.symm), el_rmul (lyb.trans la.symm)]
  unfold combine
  refine ⟨fun rank => ?_, fun rank => ?_, fun i => ?_, fun i => ?_⟩
  · dsimp only
    split_ifs
    · rw [radd_length]; omega
    · exact m4
  · dsimp only
    split_ifs <;> exact radd_ring _ _
  · simp only [if_true]
    rw [el_radd (m4.trans m5.symm), e, el_rmul (lxa.trans lyb.symm)]
  · simp only [one_ne_zero, if_false]
    exact e i

theorem caOpen {k n : ℕ} {u v a b : List ℕ} (lu : u.length = n) (lv : v.length = n) (la : a.length = n)
    (lb : b.length = n) : (radd k (rsub k u a) (rsub k v b)).length = n ∧ ∀ i,
      el k (radd k (rsub k u a) (rsub k v b)) i = el k u i - el k a i + (el k v i - el k b i) := by
  have s1 : (rsub k u a).length = n := by rw [rsub_length]; omega
  have s2 : (rsub k v b).length = n := by rw [rsub_length]; omega
  refine ⟨by rw [radd_length]; omega, fun i => ?_⟩
  rw [el_radd (s1.trans s2.symm), el_rsub (lu.trans la.symm), el_rsub (lv.trans lb.symm)]

theorem c60_mulWithBeaver {ε : ℤ} {batch k : ℕ} (hb : 0 < batch) (hb2 : 2 ∣ batch) {P : Prot} (hP : OleOk k ε P)
    (rand0 rand1 : ℕ → ℕ) {s : Cache × Cache} (hs : CacheOk (2 * ε) s) {n : ℕ} {x0 y0 x1 y1 : List ℕ}
    (lx0 : x0.length = n) (ly0 : y0.length = n) (lx1 : x1.length = n) (ly1 : y1.length = n) :
    ∃ z s', mulWithBeaver batch k P rand0 rand1 s x0 y0 x1 y1 = some (z, s') ∧ CacheOk (2 * ε) s' ∧
      Shares k (2 * ε) n z.1 z.2 fun i => (el k x0 i + el k x1 i) * (el k y0 i + el k y1 i) := by
  unfold mulWithBeaver
  split_ifs with h0
  · obtain rfl : n = 0 := by omega
    exact ⟨_, _, rfl, hs, sharesNil _ _⟩
  · obtain ⟨t, s', e, hs', T⟩ := c60_takeBeaver hb hb2 (numel := x0.length) (by omega) hP rand0 rand1 hs
    rw [lx0] at T
    obtain ⟨⟨a0, b0, c0⟩, ⟨a1, b1, c1⟩⟩ := t
    obtain ⟨la0, la1, lb0, lb1, -, -, -, -, lc0, lc1, -, -, hc⟩ := T
    dsimp only at la0 la1 lb0 lb1 lc0 lc1 hc
    rw [e, Option.bind_eq_bind, Option.bind_some, guard_bind (show a0.length = x0.length by omega)]
    refine ⟨_, _, rfl, hs', ?_⟩
    dsimp only
    obtain ⟨lxa, exa⟩ := caOpen (k := k) lx0 lx1 la0 la1
    obtain ⟨lyb, eyb⟩ := caOpen (k := k) ly0 ly1 lb0 lb1
    generalize radd k (rsub k x0 a0) (rsub k x1 a1) = xa at lxa exa ⊢
    generalize radd k (rsub k y0 b0) (rsub k y1 b1) = yb at lyb eyb ⊢
    obtain ⟨k1, k2, k3, k4⟩ := caCombine lxa lyb la0 lb0 lc0
    obtain ⟨m1, m2, m3, m4⟩ := caCombine lxa lyb la1 lb1 lc1
    refine ⟨k1 0, m1 1, k2 0, m2 1, fun i hi => ?_⟩
    obtain ⟨e, he, hce⟩ := hc i hi
    refine ⟨e, he, ?_⟩
    dsimp only
    rw [k3, m4, exa, eyb]
    linear_combination hce

theorem c60_mulDirectly {ε : ℤ} {k : ℕ} {P D : Prot} (hP : ShareOk k ε P) (hD : ShareOk k ε D) {n : ℕ} (hn : 2 ≤ n)
    {x0 y0 x1 y1 : List ℕ} (lx0 : x0.length = n) (ly0 : y0.length = n) (lx1 : x1.length = n) (ly1 : y1.length = n)
    (rx0 : InRing k x0) (ry0 : InRing k y0) (rx1 : InRing k x1) (ry1 : InRing k y1) :
    ∃ z, mulDirectly P D x0 y0 x1 y1 = some z ∧
      Shares k ε n z.1 z.2 fun i => (el k x0 i + el k x1 i) * (el k y0 i + el k y1 i) := by
  have sl : ∀ l : List ℕ, l.length = n → (slice l 0 (n / 2)).length = n / 2 ∧ (slice l (n / 2) n).length = n - n / 2 :=
    fun l hl => by simp only [slice_length]; omega
  obtain ⟨a1, a2⟩ := sl x0 lx0
  obtain ⟨b1, b2⟩ := sl y0 ly0
  obtain ⟨c1, c2⟩ := sl x1 lx1
  obtain ⟨d1, d2⟩ := sl y1 ly1
  obtain ⟨r, er, hr⟩ := hP (slice x1 0 (n / 2)) (slice y1 0 (n / 2)) (slice x0 0 (n / 2)) (slice y0 0 (n / 2))
    (by omega) (by omega) (by omega) (by omega) (slice_ring rx1 _ _) (slice_ring ry1 _ _) (slice_ring rx0 _ _)
    (slice_ring ry0 _ _)
  obtain ⟨q, eq, hq⟩ := hD (slice x0 (n / 2) n) (slice y0 (n / 2) n) (slice x1 (n / 2) n) (slice y1 (n / 2) n)
    (by omega) (by omega) (by omega) (by omega) (slice_ring rx0 _ _) (slice_ring ry0 _ _) (slice_ring rx1 _ _)
    (slice_ring ry1 _ _)
  unfold mulDirectly
  rw [lx0]
  dsimp only
  rw [er, Option.bind_eq_bind, Option.bind_some, eq, Option.bind_some]
  refine ⟨_, rfl, ?_⟩
  rw [c1] at hr
  rw [a2] at hq
  have hr' : Shares k ε (n / 2) r.2 r.1 fun i => (el k x0 i + el k x1 i) * (el k y0 i + el k y1 i) := by
    obtain ⟨u1, u2, u3, u4, u5⟩ := hr
    refine ⟨u2, u1, u4, u3, fun i hi => ?_⟩
    obtain ⟨e, he, h⟩ := u5 i hi
    refine ⟨e, he, ?_⟩
    simp only [el_slice (show 0 + i < n / 2 by omega), zero_add] at h
    dsimp only
    linear_combination h
  have := sharesAppend (w' := fun i => (el k x0 i + el k x1 i) * (el k y0 i + el k y1 i)) hr' (sharesCongr hq fun i hi => by
    simp only [el_slice (show n / 2 + i < n by omega)]) (fun i _ => rfl)
  rwa [show n / 2 + (n - n / 2) = n by omega] at this

/-- `MulAA` gives shares of the products, with twice the error of the protocol at most, and keeps the caches good. -/
theorem c60_mulAA {ε : ℤ} (hε : 0 ≤ ε) {batch k : ℕ} (hb : 0 < batch) (hb2 : 2 ∣ batch) {P D : Prot} (hP : OleOk k ε P)
    (hPs : ShareOk k ε P) (hD : ShareOk k ε D) (rand0 rand1 : ℕ → ℕ) {s : Cache × Cache} (hs : CacheOk (2 * ε) s) {n : ℕ}
    {x0 y0 x1 y1 : List ℕ} (lx0 : x0.length = n) (ly0 : y0.length = n) (lx1 : x1.length = n) (ly1 : y1.length = n)
    (rx0 : InRing k x0) (ry0 : InRing k y0) (rx1 : InRing k x1) (ry1 : InRing k y1) :
    ∃ z s', mulAA batch k P D rand0 rand1 s x0 y0 x1 y1 = some (z, s') ∧ CacheOk (2 * ε) s' ∧
      Shares k (2 * ε) n z.1 z.2 fun i => (el k x0 i + el k x1 i) * (el k y0 i + el k y1 i) := by
  unfold mulAA
  split_ifs with h
  · obtain ⟨z, e, hz⟩ := c60_mulDirectly hPs hD (n := n) (by omega) lx0 ly0 lx1 ly1 rx0 ry0 rx1 ry1
    rw [e]
    exact ⟨z, s, rfl, hs, sharesMono hz (by linarith)⟩
  · exact c60_mulWithBeaver hb hb2 hP rand0 rand1 hs lx0 ly0 lx1 ly1

/-- `MulAV` gives shares of the products with the owner's private values. -/
theorem c60_mulAV {ε : ℤ} {k : ℕ} {P : Prot} (hP : OleOk k ε P) (owner : ℕ) {n : ℕ} {x0 x1 y : List ℕ}
    (lx0 : x0.length = n) (lx1 : x1.length = n) (ly : y.length = n)
    (rx0 : InRing k x0) (rx1 : InRing k x1) (ry : InRing k y) :
    ∃ z, mulAV k owner P x0 x1 y = some z ∧ Shares k ε n z.1 z.2 fun i => (el k x0 i + el k x1 i) * el k y i := by
  unfold mulAV
  split_ifs with h0 h1
  · obtain rfl : n = 0 := by omega
    exact ⟨_, rfl, sharesNil _ _⟩
  · obtain ⟨r, e, u1, u2, u3, u4, u5⟩ := hP x1 y (by omega) (by omega) rx1 ry
    rw [e]
    have m : (rmul k x0 y).length = n := by rw [rmul_length]; omega
    refine ⟨_, rfl, by dsimp only; rw [radd_length]; omega, by dsimp only; omega, radd_ring _ _, u3, fun i hi => ?_⟩
    obtain ⟨e, he, h⟩ := u5 i (by omega)
    refine ⟨e, he, ?_⟩
    dsimp only
    rw [el_radd (u2.trans (lx1.trans m.symm)), el_rmul (lx0.trans ly.symm)]
    linear_combination h
  · obtain ⟨r, e, u1, u2, u3, u4, u5⟩ := hP x0 y (by omega) (by omega) rx0 ry
    rw [e]
    have m : (rmul k x1 y).length = n := by rw [rmul_length]; omega
    refine ⟨_, rfl, by dsimp only; omega, by dsimp only; rw [radd_length]; omega, u3, radd_ring _ _, fun i hi => ?_⟩
    obtain ⟨e, he, h⟩ := u5 i (by omega)
    refine ⟨e, he, ?_⟩
    dsimp only
    rw [el_radd (u2.trans (lx0.trans m.symm)), el_rmul (lx1.trans ly.symm)]
    linear_combination h

/-- `SquareA` gives shares of the squares, with twice the error of the protocol at most. -/
theorem c60_squareA {ε : ℤ} {k : ℕ} {P D : Prot} (hP : OleOk k ε P) (hD : OleOk k ε D) {n : ℕ} {x0 x1 : List ℕ}
    (lx0 : x0.length = n) (lx1 : x1.length = n) (rx0 : InRing k x0) (rx1 : InRing k x1) :
    ∃ z, squareA k P D x0 x1 = some z ∧ Shares k (2 * ε) n z.1 z.2 fun i => (el k x0 i + el k x1 i) ^ 2 := by
  unfold squareA
  rw [lx0]
  dsimp only
  by_cases h0 : n = 0
  · rw [if_pos h0]
    subst h0
    exact ⟨_, rfl, sharesNil _ _⟩
  · rw [if_neg h0]
    set h := if n ≤ 8192 then n else n / 2 with hh
    have hpos : 0 < h ∧ h ≤ n := by rw [hh]; split_ifs <;> omega
    have cross : ∃ m0 m1, P.ole (slice x0 0 h) (slice x1 0 h) = some m0 ∧
        (if h < n then (D.ole (slice x1 h n) (slice x0 h n)).map fun r => (r.2, r.1) else some ([], [])) = some m1 ∧
        Shares k ε n (m0.1 ++ m1.1) (m0.2 ++ m1.2) fun i => el k x0 i * el k x1 i := by
      obtain ⟨m0, e0, f0⟩ := hP (slice x0 0 h) (slice x1 0 h) (by simp only [slice_length]; omega)
        (by rw [slice_length]; omega) (slice_ring rx0 _ _) (slice_ring rx1 _ _)
      rw [slice_length, lx0, min_eq_left hpos.2, Nat.sub_zero] at f0
      have f0' := sharesCongr (w' := fun i => el k x0 i * el k x1 i) f0 (fun i hi => by
        simp only [el_slice (show 0 + i < h by omega), zero_add])
      split_ifs with c
      · obtain ⟨m1, e1, f1⟩ := hD (slice x1 h n) (slice x0 h n) (by simp only [slice_length]; omega)
          (by rw [slice_length]; omega) (slice_ring rx1 _ _) (slice_ring rx0 _ _)
        rw [slice_length, lx1, min_self] at f1
        refine ⟨m0, (m1.2, m1.1), e0, by rw [e1]; rfl, ?_⟩
        have f1' : Shares k ε (n - h) m1.2 m1.1 fun i => el k x0 (h + i) * el k x1 (h + i) := by
          obtain ⟨u1, u2, u3, u4, u5⟩ := f1
          refine ⟨u2, u1, u4, u3, fun i hi => ?_⟩
          obtain ⟨e, he, hz⟩ := u5 i hi
          refine ⟨e, he, ?_⟩
          simp only [el_slice (show h + i < n by omega)] at hz
          dsimp only
          linear_combination hz
        have := sharesAppend (w' := fun i => el k x0 i * el k x1 i) f0' f1' (fun _ _ => rfl)
        rwa [show h + (n - h) = n by omega] at this
      · refine ⟨m0, _, e0, rfl, ?_⟩
        rw [List.append_nil, List.append_nil]
        rwa [show h = n by omega] at f0'
    obtain ⟨m0, m1, e0, e1, u1, u2, u3, u4, u5⟩ := cross
    have fin : (if h < n then (do
        let m1 ← (D.ole (slice x1 h n) (slice x0 h n)).map fun r => (r.2, r.1)
        some (radd k (radd k (m0.1 ++ m1.1) (m0.1 ++ m1.1)) (rmul k x0 x0),
          radd k (radd k (m0.2 ++ m1.2) (m0.2 ++ m1.2)) (rmul k x1 x1)))
      else (do
        let m1 ← some ([], [])
        some (radd k (radd k (m0.1 ++ m1.1) (m0.1 ++ m1.1)) (rmul k x0 x0),
          radd k (radd k (m0.2 ++ m1.2) (m0.2 ++ m1.2)) (rmul k x1 x1)))) =
        some (radd k (radd k (m0.1 ++ m1.1) (m0.1 ++ m1.1)) (rmul k x0 x0),
          radd k (radd k (m0.2 ++ m1.2) (m0.2 ++ m1.2)) (rmul k x1 x1)) := by
      split_ifs at e1 ⊢ with c
      · rw [e1]; rfl
      · rw [e1]; rfl
    rw [e0, Option.bind_eq_bind, Option.bind_some]
    refine ⟨_, fin, ?_⟩
    have d1 : (radd k (m0.1 ++ m1.1) (m0.1 ++ m1.1)).length = n := by rw [radd_length]; omega
    have d2 : (radd k (m0.2 ++ m1.2) (m0.2 ++ m1.2)).length = n := by rw [radd_length]; omega
    have d3 : (rmul k x0 x0).length = n := by rw [rmul_length]; omega
    have d4 : (rmul k x1 x1).length = n := by rw [rmul_length]; omega
    refine ⟨by rw [radd_length]; omega, by rw [radd_length]; omega, radd_ring _ _, radd_ring _ _, fun i hi => ?_⟩
    obtain ⟨e, he, hz⟩ := u5 i hi
    refine ⟨2 * e, by rw [abs_mul]; norm_num; linarith, ?_⟩
    dsimp only
    rw [el_radd (d1.trans d3.symm), el_radd (d2.trans d4.symm), el_radd rfl, el_radd rfl, el_rmul rfl, el_rmul rfl]
    push_cast
    linear_combination 2 * hz

/-! ## Triples are handed out once -/

theorem caTakeOne_le {size numel : ℕ} {l : List ℕ} {r : List ℕ × List ℕ} (h : takeOne size numel l = some r) :
    ((r.1 : Multiset ℕ) + r.2) ≤ l := by
  have key : ((slice l 0 numel : List ℕ) : Multiset ℕ) + (slice l numel size : List ℕ) ≤ l := by
    conv_rhs => rw [← List.take_append_drop numel l]
    rw [Multiset.coe_add, Multiset.coe_le]
    refine List.Sublist.subperm (List.Sublist.append (List.Sublist.refl _) ?_)
    exact (List.take_sublist _ _).drop _
  have key0 : ((slice l 0 numel : List ℕ) : Multiset ℕ) + ([] : List ℕ) ≤ l :=
    le_trans (add_le_add_right (Multiset.zero_le _) _) key
  unfold takeOne at h
  by_cases g1 : numel ≤ l.length
  · rw [guard_bind g1] at h
    split_ifs at h with c
    · cases h; exact key0
    · by_cases g2 : size ≤ l.length
      · rw [guard_bind g2] at h; cases h; exact key
      · rw [guard, if_neg g2] at h; cases h
  · rw [guard, if_neg g1] at h; cases h

/-- The random elements in a cache. -/
def Cache.held (s : Cache) : Multiset ℕ := (s.a : Multiset ℕ) + s.b

/-- The random elements in triples. -/
def heldOut (t : Triples) : Multiset ℕ := (t.1 : Multiset ℕ) + t.2.1

theorem caPop_le {s s' : Cache} {numel : ℕ} {t : Triples} (h : s.pop numel = some (t, s')) :
    heldOut t + Cache.held s' ≤ Cache.held s := by
  unfold Cache.pop at h
  simp only [Option.bind_eq_bind, Option.bind_eq_some_iff, Option.some.injEq, Prod.mk.injEq] at h
  obtain ⟨a, ha, b, hb, c, hc, rfl, rfl⟩ := h
  have h1 := caTakeOne_le ha
  have h2 := caTakeOne_le hb
  have := add_le_add h1 h2
  unfold heldOut Cache.held
  dsimp only
  refine le_trans (le_of_eq ?_) this
  abel

theorem caPush_le {s : Cache} {k nb rank : ℕ} {rand cross : List ℕ} :
    Cache.held (s.push k nb (beaver k rank nb rand cross)) ≤ Cache.held s + (rand : Multiset ℕ) := by
  have hr : ((slice rand 0 nb : List ℕ) : Multiset ℕ) + (slice rand nb (nb * 2) : List ℕ) ≤ rand := by
    conv_rhs => rw [← List.take_append_drop nb rand]
    rw [Multiset.coe_add, Multiset.coe_le]
    exact List.Sublist.subperm (List.Sublist.append (List.Sublist.refl _) ((List.take_sublist _ _).drop _))
  have tk : ∀ (l : List ℕ) (n : ℕ), ((l.take n : List ℕ) : Multiset ℕ) ≤ l := fun l n =>
    Multiset.coe_le.2 (List.take_sublist n l).subperm
  unfold Cache.held Cache.push beaver
  simp only [← Multiset.coe_add]
  refine le_trans (le_trans (add_le_add (add_le_add (tk _ _) (tk _ _)) (add_le_add (tk _ _) (tk _ _))) (le_of_eq ?_))
    (add_le_add_right hr _)
  split_ifs <;> abel

/-- A request for triples: field, number, protocol and the random streams of both parties. -/
structure Take where
  k : ℕ
  numel : ℕ
  P : Prot
  rand0 : ℕ → ℕ
  rand1 : ℕ → ℕ

/-- The random elements that a request may draw. -/
def Take.draws (batch : ℕ) (o : Take) (rand : ℕ → ℕ) : List ℕ :=
  (List.range (cdiv (2 * o.numel) batch * batch)).map fun i => rand i % 2 ^ o.k

/-- A sequence of requests. -/
def takeAll (batch : ℕ) : List Take → Cache × Cache → Option (List (Triples × Triples) × (Cache × Cache))
  | [], s => some ([], s)
  | o :: os, s => do
    let r ← takeBeaver batch o.k o.numel o.P o.rand0 o.rand1 s
    let q ← takeAll batch os r.2
    some (r.1 :: q.1, q.2)

theorem caMakeSure_le {batch k numel : ℕ} {P : Prot} {rand0 rand1 : ℕ → ℕ} {s s' : Cache × Cache}
    (h : makeSure batch k numel P rand0 rand1 s = some s') :
    Cache.held s'.1 ≤ Cache.held s.1 + ((List.range (cdiv (2 * numel) batch * batch)).map fun i => rand0 i % 2 ^ k : List ℕ) ∧
    Cache.held s'.2 ≤ Cache.held s.2 + ((List.range (cdiv (2 * numel) batch * batch)).map fun i => rand1 i % 2 ^ k : List ℕ) := by
  unfold makeSure at h
  by_cases g : 0 < numel
  · rw [guard_bind g] at h
    split_ifs at h with c1 c2
    · cases h
      exact ⟨Multiset.le_add_right _ _, Multiset.le_add_right _ _⟩
    · dsimp only at h
      simp only [Option.bind_eq_bind, Option.bind_eq_some_iff] at h
      obtain ⟨cross, -, u, -, h⟩ := h
      cases h
      exact ⟨caPush_le, caPush_le⟩
  · rw [guard, if_neg g] at h; cases h

theorem caTakeBeaver_le {batch k numel : ℕ} {P : Prot} {rand0 rand1 : ℕ → ℕ} {s s' : Cache × Cache}
    {t : Triples × Triples} (h : takeBeaver batch k numel P rand0 rand1 s = some (t, s')) :
    heldOut t.1 + Cache.held s'.1 ≤
      Cache.held s.1 + ((List.range (cdiv (2 * numel) batch * batch)).map fun i => rand0 i % 2 ^ k : List ℕ) ∧
    heldOut t.2 + Cache.held s'.2 ≤
      Cache.held s.2 + ((List.range (cdiv (2 * numel) batch * batch)).map fun i => rand1 i % 2 ^ k : List ℕ) := by
  unfold takeBeaver at h
  by_cases g : 0 < numel
  · rw [guard_bind g] at h
    simp only [Option.bind_eq_bind, Option.bind_eq_some_iff] at h
    obtain ⟨m, hm, ⟨t0, s0⟩, h0, ⟨t1, s1⟩, h1, h⟩ := h
    cases h
    obtain ⟨a, b⟩ := caMakeSure_le hm
    exact ⟨(caPop_le h0).trans a, (caPop_le h1).trans b⟩
  · rw [guard, if_neg g] at h; cases h

/-- No random element is handed out twice, over any sequence of requests: if the drawn elements are pairwise distinct,
so are the elements of all triples handed out, for either party. -/
theorem c60_no_reuse {batch : ℕ} {os : List Take} {ts : List (Triples × Triples)} {s' : Cache × Cache}
    (h : takeAll batch os (Cache.new, Cache.new) = some (ts, s')) :
    ((os.flatMap fun o => o.draws batch o.rand0).Nodup → (ts.flatMap fun t => t.1.1 ++ t.1.2.1).Nodup) ∧
    ((os.flatMap fun o => o.draws batch o.rand1).Nodup → (ts.flatMap fun t => t.2.1 ++ t.2.2.1).Nodup) := by
  have key : ∀ (os : List Take) (s s' : Cache × Cache) (ts : List (Triples × Triples)),
      takeAll batch os s = some (ts, s') →
      ((ts.flatMap fun t => t.1.1 ++ t.1.2.1 : List ℕ) : Multiset ℕ) + Cache.held s'.1 ≤
        Cache.held s.1 + (os.flatMap fun o => o.draws batch o.rand0 : List ℕ) ∧
      ((ts.flatMap fun t => t.2.1 ++ t.2.2.1 : List ℕ) : Multiset ℕ) + Cache.held s'.2 ≤
        Cache.held s.2 + (os.flatMap fun o => o.draws batch o.rand1 : List ℕ) := by
    intro os
    induction os with
    | nil =>
      intro s s' ts h
      cases h
      simp
    | cons o os ih =>
      intro s s' ts h
      simp only [takeAll, Option.bind_eq_bind, Option.bind_eq_some_iff] at h
      obtain ⟨⟨t, s1⟩, h1, ⟨ts1, s2⟩, h2, h⟩ := h
      cases h
      obtain ⟨a, b⟩ := ih _ _ _ h2
      obtain ⟨a', b'⟩ := caTakeBeaver_le h1
      simp only [List.flatMap_cons, ← Multiset.coe_add]
      unfold heldOut at a' b'
      constructor
      · have := add_le_add_right a ((t.1.1 : Multiset ℕ) + (t.1.2.1 : List ℕ))
        have h3 := add_le_add_left a' ((os.flatMap fun o => o.draws batch o.rand0 : List ℕ) : Multiset ℕ)
        refine le_trans (le_of_eq ?_) (le_trans this (le_trans (le_of_eq ?_) (le_trans h3 (le_of_eq ?_))))
        · abel
        · abel
        · unfold Take.draws; abel
      · have := add_le_add_right b ((t.2.1 : Multiset ℕ) + (t.2.2.1 : List ℕ))
        have h3 := add_le_add_left b' ((os.flatMap fun o => o.draws batch o.rand1 : List ℕ) : Multiset ℕ)
        refine le_trans (le_of_eq ?_) (le_trans this (le_trans (le_of_eq ?_) (le_trans h3 (le_of_eq ?_))))
        · abel
        · abel
        · unfold Take.draws; abel
  obtain ⟨a, b⟩ := key os _ s' ts h
  have z : Cache.held Cache.new = 0 := rfl
  rw [z, zero_add] at a b
  constructor
  · intro hn
    rw [← Multiset.coe_nodup] at hn ⊢
    exact Multiset.nodup_of_le ((Multiset.le_add_right _ _).trans a) hn
  · intro hn
    rw [← Multiset.coe_nodup] at hn ⊢
    exact Multiset.nodup_of_le ((Multiset.le_add_right _ _).trans b) hn

/-- Every sequence of requests for a positive number of triples succeeds and gives matching triples. -/
theorem c60_takeAll {ε : ℤ} {batch : ℕ} (hb : 0 < batch) (hb2 : 2 ∣ batch) {os : List Take}
    (hos : ∀ o ∈ os, 0 < o.numel ∧ OleOk o.k ε o.P) :
    ∃ ts s', takeAll batch os (Cache.new, Cache.new) = some (ts, s') ∧
      List.Forall₂ (fun o t => TriplesOk o.k (2 * ε) o.numel t.1 t.2) os ts := by
  have key : ∀ (os : List Take) (s : Cache × Cache), (∀ o ∈ os, 0 < o.numel ∧ OleOk o.k ε o.P) → CacheOk (2 * ε) s →
      ∃ ts s', takeAll batch os s = some (ts, s') ∧
        List.Forall₂ (fun o t => TriplesOk o.k (2 * ε) o.numel t.1 t.2) os ts := by
    intro os
    induction os with
    | nil => intro s _ _; exact ⟨[], s, rfl, List.Forall₂.nil⟩
    | cons o os ih =>
      intro s ho hs
      obtain ⟨h1, h2⟩ := ho o List.mem_cons_self
      obtain ⟨t, s1, e, hs1, ht⟩ := c60_takeBeaver hb hb2 h1 h2 o.rand0 o.rand1 hs
      obtain ⟨ts, s2, e2, hts⟩ := ih s1 (fun o' h' => ho o' (List.mem_cons_of_mem _ h')) hs1
      exact ⟨t :: ts, s2, by simp [takeAll, e, e2], List.Forall₂.cons ht hts⟩
  exact key os _ hos ⟨rfl, rfl, fun k hk => by simp [Cache.new] at hk⟩

/-! ## Tiling -/

theorem nworker_pos {maxInst n : ℕ} (hn : 0 < n) (hm : 0 < maxInst) : 0 < nworker maxInst n := by
  unfold nworker cdiv
  rw [if_neg (by omega)]
  have : 0 < (n + 2048 - 1) / 2048 := Nat.div_pos (by omega) (by omega)
  omega

theorem caTail {maxInst n : ℕ} (hn : 0 < n) (hm : 0 < maxInst) (hx : maxInst ≤ 48) :
    (nworker maxInst n - 1) * cdiv n (nworker maxInst n) < n := by
  have h1 := nworker_pos hn hm
  have h2 : nworker maxInst n ≤ 48 := by unfold nworker; split_ifs <;> omega
  have h3 : (nworker maxInst n - 1) * 2048 < n := by
    have : nworker maxInst n ≤ cdiv n 2048 := by unfold nworker; split_ifs <;> omega
    unfold cdiv at this
    have e := Nat.div_mul_le_self (n + 2048 - 1) 2048
    omega
  obtain ⟨m, hm⟩ : ∃ m, nworker maxInst n = m + 1 := ⟨nworker maxInst n - 1, by omega⟩
  rw [hm] at h2 h3 ⊢
  rw [Nat.add_sub_cancel] at h3 ⊢
  have e1 : cdiv n (m + 1) * (m + 1) ≤ n + m := by
    unfold cdiv
    exact (Nat.div_mul_le_self _ _).trans (by omega)
  have e2 : n ≤ cdiv n (m + 1) * (m + 1) := by
    unfold cdiv
    have a := Nat.div_add_mod (n + (m + 1) - 1) (m + 1)
    have b := Nat.mod_lt (n + (m + 1) - 1) (show 0 < m + 1 by omega)
    rw [mul_comm] at a
    omega
  generalize cdiv n (m + 1) = w at e1 e2 ⊢
  by_contra hc
  have hw : w ≤ m := by
    rw [mul_add, mul_one, mul_comm w m] at e1
    omega
  have : w * (m + 1) ≤ m * 48 := Nat.mul_le_mul hw h2
  omega

theorem caTiles {maxInst n : ℕ} (hn : 0 < n) (hm : 0 < maxInst) (hx : maxInst ≤ 48) :
    tiles maxInst n = (List.range (nworker maxInst n - 1)).map (fun wi =>
      (wi * cdiv n (nworker maxInst n), (wi + 1) * cdiv n (nworker maxInst n))) ++
      [((nworker maxInst n - 1) * cdiv n (nworker maxInst n), n)] := by
  have h0 := caTail hn hm hx
  have h1 := nworker_pos hn hm
  unfold tiles
  dsimp only
  rw [if_neg (by omega)]
  generalize cdiv n (nworker maxInst n) = w at h0 ⊢
  obtain ⟨m, e⟩ : ∃ m, nworker maxInst n = m + 1 := ⟨nworker maxInst n - 1, by omega⟩
  rw [e, Nat.add_sub_cancel] at h0 ⊢
  have key : (List.range m).map (fun wi => (wi * w, min n (wi * w + w))) =
      (List.range m).map (fun wi => (wi * w, (wi + 1) * w)) := by
    refine List.map_congr_left fun wi hwi => ?_
    rw [List.mem_range] at hwi
    have : (wi + 1) * w ≤ m * w := Nat.mul_le_mul_right _ hwi
    have e3 : (wi + 1) * w = wi * w + w := by ring
    simp only [Prod.mk.injEq, true_and]
    omega
  rw [key]
  congr 3
  cases m with
  | zero => simp
  | succ m => simp [List.range_succ]

/-- The slices of the workers are non-empty and make up the whole array in order; there are as many as workers. -/
theorem c60_tiles {maxInst n : ℕ} (hn : 0 < n) (hm : 0 < maxInst) (hx : maxInst ≤ 48) :
    (tiles maxInst n).length = nworker maxInst n ∧ nworker maxInst n ≤ maxInst ∧
    (∀ t ∈ tiles maxInst n, t.1 < t.2 ∧ t.2 ≤ n) ∧
    ∀ {α : Type} (x : List α), x.length = n → ((tiles maxInst n).map fun t => slice x t.1 t.2).flatten = x := by
  have h0 := caTail hn hm hx
  have h1 := nworker_pos hn hm
  have hmax : nworker maxInst n ≤ maxInst := by unfold nworker; split_ifs <;> omega
  have hw : 0 < cdiv n (nworker maxInst n) := Nat.div_pos (by omega) h1
  rw [caTiles hn hm hx]
  generalize cdiv n (nworker maxInst n) = w at h0 hw ⊢
  obtain ⟨m, e⟩ : ∃ m, nworker maxInst n = m + 1 := ⟨nworker maxInst n - 1, by omega⟩
  rw [e] at hmax
  rw [e, Nat.add_sub_cancel] at h0 ⊢
  refine ⟨by simp, hmax, fun t ht => ?_, fun {α} x hxl => ?_⟩
  · rw [List.mem_append, List.mem_map, List.mem_singleton] at ht
    rcases ht with ⟨wi, hwi, rfl⟩ | rfl
    · rw [List.mem_range] at hwi
      have : (wi + 1) * w ≤ m * w := Nat.mul_le_mul_right _ hwi
      have e3 : (wi + 1) * w = wi * w + w := by ring
      dsimp only
      omega
    · exact ⟨h0, le_rfl⟩
  · have key : ∀ m, m * w ≤ n →
        (((List.range m).map (fun wi => (wi * w, (wi + 1) * w))).map fun t => slice x t.1 t.2).flatten = x.take (m * w) := by
      intro m
      induction m with
      | zero => simp
      | succ m ih =>
        intro hle
        have e3 : (m + 1) * w = m * w + w := by ring
        rw [List.range_succ, List.map_append, List.map_append, List.flatten_append, ih (by omega)]
        simp only [List.map_cons, List.map_nil, List.flatten_cons, List.flatten_nil, List.append_nil, slice]
        rw [e3, List.drop_take, Nat.add_sub_cancel_left, ← List.take_add]
    rw [List.map_append, List.flatten_append, key m h0.le]
    simp [slice, List.take_of_length_le hxl.le]

/-- The tiled evaluation is right when the function is right on every slice, for any sense of "right" that is preserved
by concatenation, whatever instance serves the slice. -/
theorem c60_dispatch {α β : Type} {maxInst : ℕ} (hm : 0 < maxInst) (hx : maxInst ≤ 48)
    {f : ℕ → List α → Option (List β)} {R : List α → List β → Prop}
    (hR : ∀ a b a' b', R a b → R a' b' → R (a ++ a') (b ++ b'))
    (hf : ∀ w, w < maxInst → ∀ l, l ≠ [] → ∃ r, f w l = some r ∧ R l r) {x : List α} (hne : x ≠ []) :
    ∃ r, dispatch maxInst f x = some r ∧ R x r := by
  have hn : 0 < x.length := List.length_pos_iff.2 hne
  obtain ⟨tl, tm, tn, tc⟩ := c60_tiles hn hm hx
  have tc := tc x rfl
  unfold dispatch
  rw [guard_bind hn]
  have key : ∀ (ts : List (ℕ × ℕ)) (j : ℕ), j + ts.length ≤ maxInst → (∀ t ∈ ts, t.1 < t.2 ∧ t.2 ≤ x.length) →
      ∃ outs, (ts.zipIdx j).mapM (fun t => f t.2 (slice x t.1.1 t.1.2)) = some outs ∧
        (ts ≠ [] → R (ts.map fun t => slice x t.1 t.2).flatten outs.flatten) := by
    intro ts
    induction ts with
    | nil => intro j _ _; exact ⟨[], rfl, fun h => absurd rfl h⟩
    | cons t ts ih =>
      intro j hj ht
      rw [List.length_cons] at hj
      obtain ⟨t1, t2⟩ := ht t List.mem_cons_self
      have ne : slice x t.1 t.2 ≠ [] := by
        rw [← List.length_pos_iff, slice_length]
        omega
      obtain ⟨r, er, hr⟩ := hf j (by omega) _ ne
      obtain ⟨outs, eo, ho⟩ := ih (j + 1) (by omega) fun t' h' => ht t' (List.mem_cons_of_mem _ h')
      refine ⟨r :: outs, by rw [List.zipIdx_cons, List.mapM_cons]; simp [er, eo], fun _ => ?_⟩
      rw [List.map_cons, List.flatten_cons, List.flatten_cons]
      by_cases hts : ts = []
      · subst hts
        cases eo
        simpa using hr
      · exact hR _ _ _ _ hr (ho hts)
  obtain ⟨outs, eo, ho⟩ := key (tiles maxInst x.length) 0 (by omega) tn
  rw [eo]
  refine ⟨_, rfl, ?_⟩
  have := ho (by rw [← List.length_pos_iff, tl]; exact nworker_pos hn hm)
  rwa [tc] at this

/-! ## With the homomorphic protocol -/

theorem el_range {k n : ℕ} (f : ℕ → ℕ) {i : ℕ} (hi : i < n) : el k ((List.range n).map f) i = (f i : ZMod (2 ^ k)) := by
  unfold el
  rw [List.getD_eq_getElem?_getD, List.getElem?_map, List.getElem?_range hi]
  rfl

theorem ring_range {k n : ℕ} {f : ℕ → ℕ} (hf : ∀ i, i < n → f i < 2 ^ k) : InRing k ((List.range n).map f) := by
  intro v hv
  rw [List.mem_map] at hv
  obtain ⟨i, hi, rfl⟩ := hv
  exact hf i (List.mem_range.1 hi)

theorem ring_getD {k : ℕ} {l : List ℕ} (h : InRing k l) (i : ℕ) : l.getD i 0 < 2 ^ k := by
  rw [List.getD_eq_getElem?_getD]
  rcases lt_or_ge i l.length with hi | hi
  · rw [List.getElem?_eq_getElem hi]
    exact h _ (List.getElem_mem hi)
  · rw [List.getElem?_eq_none hi]
    exact Nat.two_pow_pos k

/-- With the moduli of the program the protocol is right up to one unit for all masks; and there is a set of masks, a
fraction of at most `2^-48` (`2^-10` when errors in the last bit are allowed), outside which it is exact. -/
theorem c60_prot (lsb : Bool) {ring : ℕ} (hr : ring ∈ [32, 64, 128]) : ∃ h, init (mulCtx lsb ring ring) = some h ∧
    ∃ bad : Finset ℕ, bad.card * 2 ^ (if lsb then 10 else 48) ≤ (mulCtx lsb ring ring).Q ∧
    ∀ N, 0 < N → ∀ R : ℕ → ℕ, (∀ i, R i < (mulCtx lsb ring ring).Q) →
      ∃ P, P = prot h ring N (fun l i => R i % (mulCtx lsb ring ring).q l) ∧ OleOk ring 1 P ∧ ShareOk ring 1 P ∧
        ((∀ i, R i ∉ bad) → OleOk ring 0 P ∧ ShareOk ring 0 P) := by
  have hb : bitCeil ring = ring := by
    simp only [List.mem_cons, List.not_mem_nil, or_false] at hr
    rcases hr with rfl | rfl | rfl
    · exact (by unfold bitCeil; rw [show (32 : ℕ) = 2 ^ 5 by rfl, Nat.clog_pow _ _ (by norm_num)])
    · exact (by unfold bitCeil; rw [show (64 : ℕ) = 2 ^ 6 by rfl, Nat.clog_pow _ _ (by norm_num)])
    · exact (by unfold bitCeil; rw [show (128 : ℕ) = 2 ^ 7 by rfl, Nat.clog_pow _ _ (by norm_num)])
  have hr0 : 0 < ring := by
    simp only [List.mem_cons, List.not_mem_nil, or_false] at hr
    omega
  obtain ⟨-, H, hf, hm⟩ := c59_moduli lsb hr hr0 le_rfl
  obtain ⟨h, hh, bad, hcard, hex⟩ := c59_rate lsb hr
  have hk : (mulCtx lsb ring ring).k = ring := rfl
  rw [if_pos rfl, if_pos rfl] at hm
  refine ⟨h, hh, bad, hcard, fun N hN R hR => ⟨_, rfl, ?_⟩⟩
  generalize hc : mulCtx lsb ring ring = c at *
  have hQ : (0 : ℚ) < c.Q := by exact_mod_cast Q_pos H
  have hL : (0 : ℚ) ≤ c.L / c.g := by positivity
  have h1 : (1 : ℚ) / 2 ^ (if lsb = true then 12 else 50) < 1 := by cases lsb <;> norm_num
  have half : (2 : ℚ) ^ ring * 2 ^ (ring - 1) / (2 * c.Q) ≤ 2 ^ ring * 2 ^ (ring - 1) / c.Q := by
    apply div_le_div_of_nonneg_left (by positivity) hQ
    linarith
  have hrnd : ∀ n l, l < c.L → ∀ i, i < n → R i % c.q l < c.q l := fun n l hl i _ =>
    Nat.mod_lt _ (by have := H.one l hl; omega)
  have cen : ∀ (x : List ℕ), InRing ring x → ∀ i, i < x.length → |(centred c.k (x.getD i 0) : ℚ)| ≤ 2 ^ (ring - 1) :=
    fun x hx i _ => by rw [hk]; exact cmCentred_abs hr0 (ring_getD hx i)
  have ole : ∀ y x : List ℕ, y.length = x.length → 0 < y.length → InRing ring y → InRing ring x →
      ∃ r, (prot h ring N fun l i => R i % c.q l).ole y x = some r ∧
        Shares ring 1 y.length r.1 r.2 (fun i => el ring y i * el ring x i) ∧
        ((∀ i, R i ∉ bad) → Shares ring 0 y.length r.1 r.2 fun i => el ring y i * el ring x i) := by
    intro y x hlen hpos hy hx
    obtain ⟨a, b, e, hab⟩ := c59_mulOLE H hh hf hN hpos (x := fun i => x.getD i 0) (y := fun i => y.getD i 0)
      (fun i _ => by rw [hk]; exact ring_getD hx i) (fun i _ => by rw [hk]; exact ring_getD hy i)
      (cen y hy) (by rw [hk]; linarith) (rnd := fun l i => R i % c.q l) (hrnd _)
    rw [hk, hb] at e
    rw [hk] at hab
    have r0 := ring_range (f := a) fun i hi => (hab i hi).1
    have r1 := ring_range (f := b) fun i hi => (hab i hi).2.1
    refine ⟨_, by unfold prot; dsimp only; rw [if_pos hlen, e]; rfl, ?_, fun hbad => ?_⟩
    · refine ⟨by simp, by simp, r0, r1, fun i hi => ?_⟩
      obtain ⟨ε, hε, hz⟩ := (hab i hi).2.2.1
      refine ⟨ε, hε, ?_⟩
      rw [el_range _ hi, el_range _ hi, hz]
      unfold el
      ring
    · refine ⟨by simp, by simp, r0, r1, fun i hi => ⟨0, by simp, ?_⟩⟩
      obtain ⟨a', b', e', hab'⟩ := (hex N _ hN hpos R fun i _ => ⟨hR i, hbad i⟩).1 (fun i => x.getD i 0)
        (fun i => y.getD i 0) (fun i _ => ring_getD hx i) (fun i _ => ring_getD hy i)
      rw [hb, e] at e'
      cases e'
      rw [el_range _ hi, el_range _ hi, hab' i hi]
      unfold el
      push_cast
      ring
  have share : ∀ x0 y0 x1 y1 : List ℕ, y0.length = x0.length → x1.length = x0.length → y1.length = x0.length →
      0 < x0.length → InRing ring x0 → InRing ring y0 → InRing ring x1 → InRing ring y1 →
      ∃ r, (prot h ring N fun l i => R i % c.q l).share x0 y0 x1 y1 = some r ∧
        Shares ring 1 x0.length r.1 r.2 (fun i => (el ring x0 i + el ring x1 i) * (el ring y0 i + el ring y1 i)) ∧
        ((∀ i, R i ∉ bad) →
          Shares ring 0 x0.length r.1 r.2 fun i => (el ring x0 i + el ring x1 i) * (el ring y0 i + el ring y1 i)) := by
    intro x0 y0 x1 y1 l1 l2 l3 hpos hx0 hy0 hx1 hy1
    obtain ⟨a, b, e, hab⟩ := c59_mulShare H hh hf hN hpos (x0 := fun i => x0.getD i 0) (y0 := fun i => y0.getD i 0)
      (x1 := fun i => x1.getD i 0) (y1 := fun i => y1.getD i 0)
      (fun i _ => by rw [hk]; exact ring_getD hx0 i) (fun i _ => by rw [hk]; exact ring_getD hy0 i)
      (fun i _ => by rw [hk]; exact ring_getD hx1 i) (fun i _ => by rw [hk]; exact ring_getD hy1 i)
      (cen x0 hx0) (by rw [← l1]; exact cen y0 hy0) (by rw [hk]; linarith) (rnd := fun l i => R i % c.q l) (hrnd _)
    rw [hk, hb] at e
    rw [hk, hb] at hab
    have r0 := ring_range (f := a) fun i hi => (hab i hi).1
    have r1 := ring_range (f := b) fun i hi => (hab i hi).2.1
    refine ⟨_, by unfold prot; dsimp only; rw [if_pos ⟨l1.symm, l2.trans l3.symm, l2.symm⟩, e]; rfl, ?_, fun hbad => ?_⟩
    · refine ⟨by simp, by simp, r0, r1, fun i hi => ?_⟩
      obtain ⟨ε, hε, hz⟩ := (hab i hi).2.2.1
      refine ⟨ε, hε, ?_⟩
      rw [el_range _ hi, el_range _ hi, hz]
      rfl
    · refine ⟨by simp, by simp, r0, r1, fun i hi => ⟨0, by simp, ?_⟩⟩
      obtain ⟨a', b', e', hab'⟩ := (hex N _ hN hpos R fun i _ => ⟨hR i, hbad i⟩).2 (fun i => x0.getD i 0)
        (fun i => y0.getD i 0) (fun i => x1.getD i 0) (fun i => y1.getD i 0)
        (fun i _ => ring_getD hx0 i) (fun i _ => ring_getD hy0 i) (fun i _ => ring_getD hx1 i) (fun i _ => ring_getD hy1 i)
      rw [hb, e] at e'
      cases e'
      rw [el_range _ hi, el_range _ hi, hab' i hi]
      unfold el
      push_cast
      ring
  refine ⟨fun y x a1 a2 a3 a4 => ?_, fun x0 y0 x1 y1 a1 a2 a3 a4 a5 a6 a7 a8 => ?_, fun hbad =>
    ⟨fun y x a1 a2 a3 a4 => ?_, fun x0 y0 x1 y1 a1 a2 a3 a4 a5 a6 a7 a8 => ?_⟩⟩
  · obtain ⟨r, e, z, -⟩ := ole y x a1 a2 a3 a4
    exact ⟨r, e, z⟩
  · obtain ⟨r, e, z, -⟩ := share x0 y0 x1 y1 a1 a2 a3 a4 a5 a6 a7 a8
    exact ⟨r, e, z⟩
  · obtain ⟨r, e, -, z⟩ := ole y x a1 a2 a3 a4
    exact ⟨r, e, z hbad⟩
  · obtain ⟨r, e, -, z⟩ := share x0 y0 x1 y1 a1 a2 a3 a4 a5 a6 a7 a8
    exact ⟨r, e, z hbad⟩

/-! ## Examples -/

/-- A protocol that computes exact products and keeps all in the evaluator's share. -/
def exactProt (k : ℕ) : Prot where
  ole y x := some (rmul k y x, y.map fun _ => 0)
  share x0 y0 x1 y1 := some (rmul k (radd k x0 x1) (radd k y0 y1), x0.map fun _ => 0)

example : OleOk 32 0 (exactProt 32) := by
  intro y x hl _ _ _
  refine ⟨_, rfl, by rw [rmul_length]; omega, by simp, ?_, fun v hv => ?_, fun i hi => ⟨0, by simp, ?_⟩⟩
  · intro v hv
    simp only [rmul, List.mem_iff_getElem, List.length_zipWith, List.getElem_zipWith] at hv
    obtain ⟨i, hi, rfl⟩ := hv
    exact Nat.mod_lt _ (by positivity)
  · simp only [List.mem_map] at hv
    obtain ⟨_, _, rfl⟩ := hv
    positivity
  · rw [el_rmul hl]
    simp [el, List.getD_eq_getElem?_getD, List.getElem?_map, hi]

/-- Requests with a change of field; the rest of the first batch is used, then dropped. -/
def takesDemo : List Take :=
  [⟨32, 3, exactProt 32, fun i => 10 + i, fun i => 100 + i⟩, ⟨32, 4, exactProt 32, fun i => 40 + i, fun i => 140 + i⟩,
    ⟨64, 1, exactProt 64, fun i => 70 + i, fun i => 170 + i⟩]

example : (takeAll 8 takesDemo (Cache.new, Cache.new)).map (fun r => r.1.map fun t => (t.1.1, t.1.2.1, t.2.1, t.2.2.1)) =
    some [([10, 11, 12], [14, 15, 16], [104, 105, 106], [100, 101, 102]),
      ([13, 40, 41, 42], [17, 44, 45, 46], [107, 144, 145, 146], [103, 140, 141, 142]),
      ([70], [74], [174], [170])] := by decide +kernel

example : (takesDemo.flatMap fun o => o.draws 8 o.rand0).Nodup ∧ (takesDemo.flatMap fun o => o.draws 8 o.rand1).Nodup := by
  decide +kernel

example : (mulAA 4 32 (exactProt 32) (exactProt 32) (fun i => 10 + i) (fun i => 100 + i) (Cache.new, Cache.new)
    [5, 4294967295, 7] [1, 2, 3] [1, 3, 0] [4, 4, 4]).map (fun r => radd 32 r.1.1 r.1.2) = some [30, 12, 49] := by
  decide +kernel

example : tiles 4 5000 = [(0, 1667), (1667, 3334), (3334, 5000)] := by decide +kernel

end Spu.Props

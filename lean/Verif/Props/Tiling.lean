import Verif.Model.Tiling
import Verif.Lemmas.Iter
import Verif.Lemmas.Layout
import Verif.Props.NdArray

set_option autoImplicit false

/-!
# C36: tiled execution
-/

namespace Spu.Props

open Spu.Model Spu.Model.Tiling Spu.Spec

/-! ## The slicing dimension -/

theorem size_reverse (l : List Nat) : size l.reverse = size l := by
  induction l with
  | nil => rfl
  | cons d ds ih => rw [List.reverse_cons, size_append, ih]; simp [size, Nat.mul_comm]

theorem findSlice_spec (block : Nat) : ∀ (r : List Nat) (acc : Nat), acc ≤ block → block < acc * size r →
    ∃ I D O, r = I ++ D :: O ∧ findSlice block r acc = (some O.length, acc * size I) ∧ acc * size I ≤ block ∧
      block < acc * size I * D := by
  intro r
  induction r with
  | nil => intro acc h1 h2; simp [size] at h2; omega
  | cons d ds ih =>
    intro acc h1 h2
    unfold findSlice
    split_ifs with h
    · refine ⟨[], d, ds, rfl, ?_, by simpa [size] using h1, by simpa [size] using h⟩
      have : 0 < d := by
        rcases Nat.eq_zero_or_pos d with h0 | h0
        · rw [h0] at h; omega
        · exact h0
      rw [Nat.mul_div_cancel _ this]; simp [size]
    · obtain ⟨I, D, O, e1, e2, e3, e4⟩ := ih (acc * d) (by omega) (by rw [Nat.mul_assoc]; exact h2)
      refine ⟨d :: I, D, O, by simp [e1], ?_, ?_, ?_⟩
      · rw [e2]; simp [size, Nat.mul_assoc]
      · simpa [size, Nat.mul_assoc] using e3
      · simpa [size, Nat.mul_assoc] using e4

/-! ## The odometer -/

theorem InB_length {i s : List Nat} (h : InB i s) : i.length = s.length := by
  induction h with
  | nil => rfl
  | cons _ _ ih => simp [ih]

theorem size_pos_iff {s : List Nat} (h : 0 < size s) : ∀ d ∈ s, 0 < d := by
  induction s with
  | nil => simp
  | cons d ds ih =>
    simp only [size] at h
    intro x hx
    rcases List.mem_cons.1 hx with rfl | hx
    · exact Nat.pos_of_mul_pos_right h
    · exact ih (Nat.pos_of_mul_pos_left h) x hx

theorem carryLoop_spec : ∀ (n : Nat) (O o rest t u : List Nat), O.length = n → InB o O →
    ∃ o', carryLoop (O ++ rest) n (o ++ t) (o.map (· + 1) ++ u) = some (o' ++ t, o'.map (· + 1) ++ u) ∧ InB o' O ∧
      pos o' O = (pos o O + 1) % size O := by
  intro n
  induction n with
  | zero =>
    intro O o rest t u hn hi
    have hO : O = [] := List.length_eq_zero_iff.1 hn
    subst hO
    cases hi
    exact ⟨[], rfl, .nil, by simp [pos, size]⟩
  | succ n ih =>
    intro O o rest t u hn hi
    obtain ⟨P, d, rfl⟩ : ∃ P d, O = P ++ [d] := by
      rcases List.eq_nil_or_concat O with h | ⟨P, d, h⟩
      · subst h; simp at hn
      · exact ⟨P, d, by simpa using h⟩
    obtain ⟨q, a', rfl, hq, ha⟩ := InB_split hi
    obtain ⟨a, rfl, had⟩ : ∃ a, a' = [a] ∧ a < d := by
      cases ha with
      | cons h h' => cases h'; exact ⟨_, rfl, h⟩
    have hP : P.length = n := by simpa using hn
    have hql : q.length = n := by rw [InB_length hq, hP]
    have g1 : (P ++ [d] ++ rest)[n]? = some d := by
      rw [List.append_assoc, List.getElem?_append_right (by omega), hP]; simp
    have g2 : (q ++ [a] ++ t)[n]? = some a := by
      rw [List.append_assoc, List.getElem?_append_right (by omega), hql]; simp
    have g3 : ((q ++ [a]).map (· + 1) ++ u)[n]? = some (a + 1) := by
      rw [List.map_append, List.append_assoc, List.getElem?_append_right (by simp; omega)]; simp [hql]
    have s1 : (q ++ [a] ++ t).set n ((a + 1) % d) = q ++ ([(a + 1) % d] ++ t) := by
      rw [List.append_assoc, List.set_append_right _ _ (by omega), hql]; simp
    have s2 : ((q ++ [a]).map (· + 1) ++ u).set n ((a + 1) % d + 1) = q.map (· + 1) ++ ([(a + 1) % d + 1] ++ u) := by
      rw [List.map_append, List.append_assoc, List.set_append_right _ _ (by simp; omega)]; simp [hql]
    unfold carryLoop
    simp only [g1, g2, g3, Option.bind_eq_bind, Option.bind_some, s1, s2]
    rw [if_neg (by omega)]
    have hpos : pos (q ++ [a]) (P ++ [d]) = pos q P * d + a := by
      rw [pos_append (InB_length hq)]; simp [pos, size]
    have hsz : size (P ++ [d]) = size P * d := by rw [size_append]; simp [size]
    have hqP := pos_lt_size hq
    rcases Nat.lt_or_ge (a + 1) d with hlt | hge
    · rw [Nat.mod_eq_of_lt hlt, if_pos (by omega)]
      refine ⟨q ++ [a + 1], by simp, InB_append hq (.cons hlt .nil), ?_⟩
      rw [pos_append (InB_length hq), hpos, hsz]
      simp only [pos, size]
      rw [Nat.mod_eq_of_lt]
      · ring
      · calc pos q P * d + a + 1 < pos q P * d + d := by omega
          _ = (pos q P + 1) * d := by ring
          _ ≤ size P * d := Nat.mul_le_mul_right _ hqP
    · have had' : a + 1 = d := by omega
      rw [had', Nat.mod_self, if_neg (by omega)]
      obtain ⟨o', e1, e2, e3⟩ := ih P q ([d] ++ rest) ([0] ++ t) ([0 + 1] ++ u) hP hq
      refine ⟨o' ++ [0], ?_, InB_append e2 (.cons (by omega) .nil), ?_⟩
      · rw [List.append_assoc, e1]; simp
      · rw [pos_append (InB_length e2), hpos, hsz, e3]
        simp only [pos, size]
        rw [show pos q P * d + a + 1 = (pos q P + 1) * d by rw [← had']; ring]
        rw [Nat.mul_mod_mul_right]
        ring

/-! ## The sequence of slices -/

/-- the slice from `s` to `e` is the block of the array from position `off` on -/
structure Box (shape s e : List Nat) (off : Nat) : Prop where
  ls : s.length = shape.length
  le : e.length = shape.length
  ub : ∀ a, a < shape.length → e.getD a 0 ≤ shape.getD a 0
  inb : ∀ i, InB i (sliceShape s e (List.replicate shape.length 1)) → InB (affine s (List.replicate shape.length 1) i) shape
  pos : ∀ i, InB i (sliceShape s e (List.replicate shape.length 1)) →
    pos (affine s (List.replicate shape.length 1) i) shape = off + pos i (sliceShape s e (List.replicate shape.length 1))

/-- the slices cover the array from position `off` to the end, one after another -/
def Cover (shape : List Nat) : Nat → List (List Nat × List Nat) → Prop
  | off, [] => off = size shape
  | off, (s, e) :: r => Box shape s e off ∧ Cover shape (off + size (sliceShape s e (List.replicate shape.length 1))) r

theorem sliceShape_append (s1 e1 k1 s2 e2 k2 : List Nat) (h1 : s1.length = e1.length) (h2 : s1.length = k1.length) :
    sliceShape (s1 ++ s2) (e1 ++ e2) (k1 ++ k2) = sliceShape s1 e1 k1 ++ sliceShape s2 e2 k2 := by
  induction s1 generalizing e1 k1 with
  | nil =>
    have : e1 = [] := List.length_eq_zero_iff.1 (by simpa using h1.symm)
    have : k1 = [] := List.length_eq_zero_iff.1 (by simpa using h2.symm)
    subst_vars; simp [sliceShape]
  | cons b bs ih =>
    cases e1 with
    | nil => simp at h1
    | cons e es => cases k1 with
      | nil => simp at h2
      | cons k ks => simp [sliceShape, ih es ks (by simpa using h1) (by simpa using h2)]

theorem affine_append (s1 k1 i1 s2 k2 i2 : List Nat) (h1 : s1.length = i1.length) (h2 : s1.length = k1.length) :
    affine (s1 ++ s2) (k1 ++ k2) (i1 ++ i2) = affine s1 k1 i1 ++ affine s2 k2 i2 := by
  induction s1 generalizing i1 k1 with
  | nil =>
    have : i1 = [] := List.length_eq_zero_iff.1 (by simpa using h1.symm)
    have : k1 = [] := List.length_eq_zero_iff.1 (by simpa using h2.symm)
    subst_vars; simp [affine]
  | cons b bs ih =>
    cases i1 with
    | nil => simp at h1
    | cons e es => cases k1 with
      | nil => simp at h2
      | cons k ks => simp [affine, ih ks es (by simpa using h1) (by simpa using h2)]

theorem sliceShape_unit (o : List Nat) : sliceShape o (o.map (· + 1)) (List.replicate o.length 1) = List.replicate o.length 1 := by
  induction o with
  | nil => rfl
  | cons a as ih => simp [sliceShape, List.replicate_succ, ih]

theorem sliceShape_full (I : List Nat) : sliceShape (List.replicate I.length 0) I (List.replicate I.length 1) = I := by
  induction I with
  | nil => rfl
  | cons a as ih => simp [sliceShape, List.replicate_succ, ih]

theorem affine_full (I i : List Nat) (h : InB i I) : affine (List.replicate I.length 0) (List.replicate I.length 1) i = i := by
  induction h with
  | nil => rfl
  | cons _ _ ih => simp [affine, List.replicate_succ, ih]

theorem affine_unit (o i : List Nat) (h : InB i (List.replicate o.length 1)) :
    affine o (List.replicate o.length 1) i = o ∧ i = List.replicate o.length 0 := by
  induction o generalizing i with
  | nil => cases h; exact ⟨rfl, rfl⟩
  | cons a as ih =>
    rw [List.length_cons, List.replicate_succ] at h
    cases h with
    | cons h1 h2 =>
      obtain ⟨e1, e2⟩ := ih _ h2
      constructor
      · simp [affine, List.replicate_succ, e1]; omega
      · rw [List.length_cons, List.replicate_succ, ← e2]; congr 1; omega

theorem size_ones (n : Nat) : size (List.replicate n 1) = 1 := by
  induction n with
  | zero => rfl
  | succ n ih => simp [List.replicate_succ, size, ih]

/-- one slice -/
theorem box_spec (O I o : List Nat) (D a b : Nat) (hab : a < b) (hb : b ≤ D) (ho : InB o O) :
    Box (O ++ D :: I) (o ++ a :: List.replicate I.length 0) (o.map (· + 1) ++ b :: I) ((pos o O * D + a) * size I) ∧
    size (sliceShape (o ++ a :: List.replicate I.length 0) (o.map (· + 1) ++ b :: I) (List.replicate (O ++ D :: I).length 1)) =
      (b - a) * size I := by
  have hl := InB_length ho
  have hrep : List.replicate (O ++ D :: I).length 1 = List.replicate o.length 1 ++ 1 :: List.replicate I.length 1 := by
    rw [← List.replicate_succ, List.replicate_append_replicate]; congr 1; simp; omega
  have hss : sliceShape (o ++ a :: List.replicate I.length 0) (o.map (· + 1) ++ b :: I) (List.replicate (O ++ D :: I).length 1) =
      List.replicate o.length 1 ++ (b - a) :: I := by
    rw [hrep, sliceShape_append _ _ _ _ _ _ (by simp) (by simp), sliceShape_unit]
    simp [sliceShape, sliceShape_full]
  refine ⟨⟨by simp; omega, by simp; omega, ?_, ?_, ?_⟩, ?_⟩
  · intro x hx
    rcases Nat.lt_or_ge x O.length with h | h
    · rw [List.getD_append _ _ _ _ (by simp; omega), List.getD_append _ _ _ _ h]
      clear hss hrep
      induction ho generalizing x with
      | nil => simp at h
      | @cons i d is ds hi _ ih =>
        cases x with
        | zero => simp; omega
        | succ x => simpa using ih (by simpa using hl) x (by simp at hx ⊢; omega) (by simpa using h)
    · rw [List.getD_append_right _ _ _ _ (by simp; omega), List.getD_append_right _ _ _ _ h]
      simp only [List.length_map, hl]
      cases x - O.length with
      | zero => simpa using hb
      | succ x => simp
  · intro i hi
    rw [hss] at hi
    obtain ⟨i1, i2, rfl, h1, h2⟩ := InB_split hi
    cases h2 with
    | @cons c _ is _ hc h3 =>
      obtain ⟨e1, e2⟩ := affine_unit o i1 h1
      have hi1 : i1.length = o.length := by rw [e2]; simp
      rw [hrep, affine_append _ _ _ _ _ _ hi1.symm (by simp), e1]
      simp only [affine, affine_full I is h3]
      exact InB_append ho (.cons (by omega) h3)
  · intro i hi
    rw [hss] at hi ⊢
    obtain ⟨i1, i2, rfl, h1, h2⟩ := InB_split hi
    cases h2 with
    | @cons c _ is _ hc h3 =>
      obtain ⟨e1, e2⟩ := affine_unit o i1 h1
      have hi1 : i1.length = o.length := by rw [e2]; simp
      rw [hrep, affine_append _ _ _ _ _ _ hi1.symm (by simp), e1, pos_append hl, pos_append (by simp [hi1]), e2]
      simp only [affine, pos, affine_full I is h3, size]
      have : pos (List.replicate o.length 0) (List.replicate o.length 1) = 0 := by
        have := pos_lt_size (e2 ▸ h1); rw [size_ones] at this; omega
      rw [this]
      ring
  · rw [hss, size_append, size_ones]; simp [size]

theorem slices_spec (O I : List Nat) (D stride N : Nat) (hD : stride ≤ D) (hst : 0 < stride)
    (hN : ∀ c, c * stride < D ↔ c < N) :
    ∀ (n : Nat) (o : List Nat) (c : Nat), InB o O → c * stride < D → n + (pos o O * N + c) = size O * N →
      ∃ ses, slices (O ++ D :: I) O.length stride n (o ++ (c * stride) :: List.replicate I.length 0)
        (o.map (· + 1) ++ (min ((c + 1) * stride) D) :: I) = some ses ∧ ses.length = n ∧
        (0 < n → Cover (O ++ D :: I) ((pos o O * D + c * stride) * size I) ses) := by
  intro n
  induction n with
  | zero => intro o c _ _ _; exact ⟨[], rfl, rfl, fun h => absurd h (by omega)⟩
  | succ n ih =>
    intro o c ho hc hn
    have hl := InB_length ho
    have hp := pos_lt_size ho
    have hcN := (hN c).1 hc
    have hcs : (c + 1) * stride = c * stride + stride := by ring
    have g1 : (O ++ D :: I)[O.length]? = some D := by simp
    have g2 : (o ++ (c * stride) :: List.replicate I.length 0)[O.length]? = some (c * stride) := by
      rw [List.getElem?_append_right (by omega), hl]; simp
    have g3 : (o.map (· + 1) ++ (min ((c + 1) * stride) D) :: I)[O.length]? = some (min ((c + 1) * stride) D) := by
      rw [List.getElem?_append_right (by simp; omega)]; simp [hl]
    have s1 : ∀ x, (o ++ (c * stride) :: List.replicate I.length 0).set O.length x = o ++ x :: List.replicate I.length 0 := by
      intro x; rw [List.set_append_right _ _ (by omega), hl]; simp
    have s2 : ∀ x, (o.map (· + 1) ++ (min ((c + 1) * stride) D) :: I).set O.length x = o.map (· + 1) ++ x :: I := by
      intro x; rw [List.set_append_right _ _ (by simp; omega)]; simp [hl]
    obtain ⟨hbox, hsz⟩ := box_spec O I o D (c * stride) (min ((c + 1) * stride) D) (by omega) (by omega) ho
    unfold slices nextSlice
    simp only [g1, g2, g3, Option.bind_eq_bind, Option.bind_some, s1, s2]
    rcases Nat.lt_or_ge ((c + 1) * stride) D with hlt | hge
    · have hmin : min ((c + 1) * stride) D = (c + 1) * stride := by omega
      have hcN' := (hN (c + 1)).1 hlt
      obtain ⟨ses, e1, e2, e3⟩ := ih o (c + 1) ho hlt (by omega)
      have hnext : (if (c + 1) * stride + stride > D then D else (c + 1) * stride + stride) = min ((c + 1 + 1) * stride) D := by
        have : (c + 1 + 1) * stride = (c + 1) * stride + stride := by ring
        split_ifs <;> omega
      rw [hmin] at hbox hsz
      rw [hmin, if_neg (by omega)]
      simp only [Option.bind_some]
      rw [hnext, ← hcs, e1]
      refine ⟨_, rfl, by simp [e2], fun _ => ⟨hbox, ?_⟩⟩
      rw [hsz]
      have hn0 : 0 < n := by
        have : (pos o O + 1) * N ≤ size O * N := Nat.mul_le_mul_right _ hp
        have : (pos o O + 1) * N = pos o O * N + N := by ring
        omega
      have := e3 hn0
      rw [show (pos o O * D + c * stride) * size I + ((c + 1) * stride - c * stride) * size I =
        (pos o O * D + (c + 1) * stride) * size I by rw [hcs, Nat.add_sub_cancel_left]; ring]
      exact this
    · have hmin : min ((c + 1) * stride) D = D := by omega
      have hcN' : c + 1 = N := by
        have : ¬ c + 1 < N := fun h => by have := (hN (c + 1)).2 h; omega
        omega
      have hpN : (pos o O + 1) * N = pos o O * N + c + 1 := by rw [← hcN']; ring
      rw [hmin] at hbox hsz
      rw [hmin, if_pos rfl]
      obtain ⟨o', f1, f2, f3⟩ := carryLoop_spec O.length O o (D :: I) (0 :: List.replicate I.length 0) (stride :: I) rfl ho
      rw [f1]
      simp only [Option.bind_some]
      have hnext : (pos o O * D + c * stride) * size I + (D - c * stride) * size I = (pos o O + 1) * D * size I := by
        rw [← Nat.add_mul]; congr 1
        have : (pos o O + 1) * D = pos o O * D + D := by ring
        omega
      rcases Nat.eq_zero_or_pos n with h0 | hpos
      · subst h0
        refine ⟨_, rfl, rfl, fun _ => ⟨hbox, ?_⟩⟩
        rw [hsz, hnext]
        have : (pos o O + 1) * N = size O * N := by omega
        have := Nat.eq_of_mul_eq_mul_right (by omega) this
        show _ = size (O ++ D :: I)
        rw [size_append, this]; simp [size, Nat.mul_assoc]
      · have hlt : pos o O + 1 < size O := by
          by_contra hge'
          have : pos o O + 1 = size O := by omega
          rw [← this] at hn
          omega
        rw [Nat.mod_eq_of_lt hlt] at f3
        obtain ⟨ses, e1, e2, e3⟩ := ih o' 0 f2 (by omega) (by rw [f3]; omega)
        have hm : min ((0 + 1) * stride) D = stride := by omega
        rw [hm, Nat.zero_mul] at e1
        rw [e1]
        refine ⟨_, rfl, by simp [e2], fun _ => ⟨hbox, ?_⟩⟩
        have := e3 hpos
        rw [f3, Nat.zero_mul, Nat.add_zero] at this
        rw [hsz, hnext]
        exact this

/-! ## Kernels -/

/-- A kernel of `n` operands that works element by element: on valid operands of one shape it returns a compact array of the same shape, and every element of the
result is related by `R` to the operand elements at the same index -/
def Elementwise {α β : Type} (n : Nat) (R : List (Option α) → β → Prop) (fn : Kernel α β) : Prop :=
  ∀ (ctx : Option Nat) (ops : List (Nd α)) (sh : List Nat), ops.length = n → (∀ op ∈ ops, op.2.Valid op.1 ∧ op.2.shape = sh) →
    ∃ b w, fn ctx ops = some (b, w) ∧ w.shape = sh ∧ w.Valid b ∧ w.isCompact = true ∧
      ∀ idx, InB idx sh → ∃ y, w.get b idx = some y ∧ R (ops.map fun op => op.2.get op.1 idx) y

theorem compact_view_addr {v : View} (hv : v.WF) (hc : v.isCompact = true) {idx : Index} (hi : InB idx v.shape) :
    v.addr idx = v.offset + pos idx v.shape := by
  unfold View.isCompact at hc
  rw [Bool.or_eq_true, decide_eq_true_eq, decide_eq_true_eq] at hc
  have hp := size_pos_of_InB hi
  rw [addr_eq hv]
  rcases hc with hc | hc
  · rw [numel_eq_size] at hc
    have h2 : pos idx v.shape = 0 := by have := pos_lt_size hi; omega
    have h3 : idx = List.replicate v.shape.length 0 := pos_inj hi (InB_zeros hp) (by rw [h2, pos_zeros])
    rw [h2, h3, strideDot_zeros]; rfl
  · rw [hc, strideDot_compact hi]

theorem mapM_range {β : Type} (g : Nat → Option β) (n : Nat) (h : ∀ p, p < n → ∃ y, g p = some y) :
    ∃ ys, (List.range n).mapM g = some ys ∧ ys.length = n ∧ ∀ p, p < n → ys[p]? = g p := by
  induction n with
  | zero => exact ⟨[], rfl, rfl, fun _ h => absurd h (by omega)⟩
  | succ n ih =>
    obtain ⟨ys, h1, h2, h3⟩ := ih fun p hp => h p (by omega)
    obtain ⟨y, hy⟩ := h n (by omega)
    refine ⟨ys ++ [y], ?_, by simp [h2], ?_⟩
    · rw [List.range_succ, List.mapM_append, h1]
      simp [hy]
    · intro p hp
      rcases Nat.lt_or_ge p n with hlt | hge
      · rw [List.getElem?_append_left (by omega), h3 p hlt]
      · have : p = n := by omega
        subst this
        rw [List.getElem?_append_right (by omega), h2, hy]; simp

/-- the copied elements of a compact result -/
theorem rawRead_spec {β : Type} (b : Array β) (w : View) (hv : w.Valid b) (hc : w.isCompact = true) :
    ∃ xs, rawRead (b, w) (numel w.shape) = some xs ∧ xs.length = size w.shape ∧
      ∀ idx, InB idx w.shape → xs[pos idx w.shape]? = w.get b idx := by
  have key : ∀ idx, InB idx w.shape → rd b (w.offset + (pos idx w.shape : Int)) = w.get b idx := by
    intro idx hi
    rw [View.get, compact_view_addr hv.1 hc hi]
  obtain ⟨xs, h1, h2, h3⟩ := mapM_range (fun (p : Nat) => rd b (w.offset + (p : Int))) (size w.shape) (by
    intro p hp
    obtain ⟨idx, hi, rfl⟩ := exists_InB hp
    obtain ⟨y, hy⟩ := hv.2 idx hi
    exact ⟨y, by rw [key idx hi]; exact hy⟩)
  refine ⟨xs, ?_, h2, fun idx hi => by rw [h3 _ (pos_lt_size hi), key idx hi]⟩
  unfold rawRead
  rw [numel_eq_size]
  exact h1

theorem slice_none_succeeds {v : View} (hv : v.WF) {s e : List Nat} (h1 : s.length = v.shape.length) (h2 : e.length = v.shape.length)
    (h4 : ∀ a, a < v.shape.length → e.getD a 0 ≤ v.shape.getD a 0) : ∃ w, v.slice s e none = some w := by
  suffices ∃ r, sliceAxes v.shape v.strides s e none = some r by
    obtain ⟨r, hr⟩ := this; exact ⟨_, by simp [View.slice, hr]; rfl⟩
  unfold View.WF at hv
  obtain ⟨sh, st, o⟩ := v
  simp only at *
  induction sh generalizing st s e with
  | nil =>
    simp only [List.length_nil, List.length_eq_zero_iff] at *
    subst h1 h2 hv
    exact ⟨[], rfl⟩
  | cons d ds ih =>
    cases st with
    | nil => simp at hv
    | cons k ks => cases s with
      | nil => simp at h1
      | cons b bs => cases e with
        | nil => simp at h2
        | cons e es =>
          obtain ⟨r, hr⟩ := ih (s := bs) (e := es) ks (by simpa using hv) (by simpa using h1) (by simpa using h2)
            (fun a ha => by simpa using h4 (a + 1) (by simpa using ha))
          have h0 : e ≤ d := by simpa using h4 0 (by simp)
          have : ∃ a, sliceAxis d k b e none = some a := by
            unfold sliceAxis
            rw [if_neg (by omega)]
            dsimp only
            split <;> exact ⟨_, rfl⟩
          obtain ⟨a, ha⟩ := this
          exact ⟨a :: r, by simp [sliceAxes, ha, hr]⟩

theorem effSteps_none (n : Nat) : effSteps none n = List.replicate n 1 := rfl

theorem mapM_forall₂ {α β : Type} (g : α → Option β) (P : α → β → Prop) (l : List α) (h : ∀ x ∈ l, ∃ y, g x = some y ∧ P x y) :
    ∃ ys, l.mapM g = some ys ∧ List.Forall₂ P l ys := by
  induction l with
  | nil => exact ⟨[], rfl, .nil⟩
  | cons x xs ih =>
    obtain ⟨y, h1, h2⟩ := h x (by simp)
    obtain ⟨ys, h3, h4⟩ := ih fun z hz => h z (by simp [hz])
    exact ⟨y :: ys, by simp [h1, h3], .cons h2 h4⟩

/-- one tile -/
theorem runTile_spec {α β : Type} (R : List (Option α) → β → Prop) (fn : Kernel α β) (ops : List (Nd α)) (hfn : Elementwise ops.length R fn)
    (sh : List Nat) (hops : ∀ op ∈ ops, op.2.Valid op.1 ∧ op.2.shape = sh) (i : Nat) (s e : List Nat) (off : Nat) (hb : Box sh s e off) :
    ∃ b w xs, runTile fn ops i (s, e) = some (b, w) ∧ rawRead (b, w) (numel w.shape) = some xs ∧
      xs.length = size (sliceShape s e (List.replicate sh.length 1)) ∧
      ∀ p, p < xs.length → ∃ y idx, xs[p]? = some y ∧ InB idx sh ∧ pos idx sh = off + p ∧ R (ops.map fun op => op.2.get op.1 idx) y := by
  have hones : ∀ k ∈ List.replicate sh.length 1, 0 < k := fun k hk => by rw [List.eq_of_mem_replicate hk]; omega
  obtain ⟨sub, hs1, hs2⟩ := mapM_forall₂ (fun op : Nd α => (op.2.slice s e none).map fun w => (op.1, w))
    (fun op r => r.2.Valid r.1 ∧ r.2.shape = sliceShape s e (List.replicate sh.length 1) ∧
      ∀ idx, InB idx r.2.shape → r.2.get r.1 idx = op.2.get op.1 (affine s (List.replicate sh.length 1) idx)) ops (by
    intro op hop
    obtain ⟨hv, hsh⟩ := hops op hop
    obtain ⟨w, hw⟩ := slice_none_succeeds hv.1 (s := s) (e := e) (by rw [hsh]; exact hb.ls) (by rw [hsh]; exact hb.le)
      (by rw [hsh]; exact hb.ub)
    refine ⟨(op.1, w), by rw [hw]; rfl, ?_⟩
    have hc := c04_slice (α := α) (by rw [hsh, effSteps_none]; exact hones) hw
    rw [hsh, effSteps_none] at hc
    obtain ⟨c1, c2, c3⟩ := hc
    refine ⟨⟨c1, fun idx hi => ?_⟩, c2, fun idx hi => (c3 op.1 idx hi).2⟩
    obtain ⟨d1, d2⟩ := c3 op.1 idx hi
    obtain ⟨x, hx⟩ := hv.2 _ (by rw [hsh]; exact d1)
    exact ⟨x, by rw [d2, hx]⟩)
  have hsub : ∀ op ∈ sub, op.2.Valid op.1 ∧ op.2.shape = sliceShape s e (List.replicate sh.length 1) := by
    clear hs1 hfn
    induction hs2 with
    | nil => simp
    | cons h _ ih =>
      intro op hop
      rcases List.mem_cons.1 hop with rfl | hop
      · exact ⟨h.1, h.2.1⟩
      · exact ih (fun op hop => hops op (by simp [hop])) op hop
  obtain ⟨b, w, f1, f2, f3, f4, f5⟩ := hfn (some i) sub _ hs2.length_eq.symm hsub
  obtain ⟨xs, g1, g2, g3⟩ := rawRead_spec b w f3 f4
  rw [f2] at g2 g3
  refine ⟨b, w, xs, ?_, g1, g2, ?_⟩
  · unfold runTile
    rw [hs1]
    exact f1
  · intro p hp
    rw [g2] at hp
    obtain ⟨idx, hi, rfl⟩ := exists_InB hp
    obtain ⟨y, hy, hR⟩ := f5 idx hi
    have hmap : (sub.map fun op => op.2.get op.1 idx) =
        ops.map fun op => op.2.get op.1 (affine s (List.replicate sh.length 1) idx) := by
      clear hs1 hsub f1 hR f5 hfn
      induction hs2 with
      | nil => rfl
      | cons h _ ih =>
        rw [List.map_cons, List.map_cons, h.2.2 idx (by rw [h.2.1]; exact hi), ih (fun op hop => hops op (by simp [hop]))]
    refine ⟨y, affine s (List.replicate sh.length 1) idx, by rw [g3 idx hi, hy], ?_, hb.pos idx hi, by rw [← hmap]; exact hR⟩
    exact hb.inb idx hi

theorem gather_spec {α β : Type} (R : List (Option α) → β → Prop) (fn : Kernel α β) (ops : List (Nd α)) (hfn : Elementwise ops.length R fn)
    (sh : List Nat) (hops : ∀ op ∈ ops, op.2.Valid op.1 ∧ op.2.shape = sh) :
    ∀ (ses : List (List Nat × List Nat)) (k : Nat) (out : List β), Cover sh out.length ses →
      (∀ p, p < out.length → ∃ y idx, out[p]? = some y ∧ InB idx sh ∧ pos idx sh = p ∧ R (ops.map fun op => op.2.get op.1 idx) y) →
      ∃ rs out', ((ses.zipIdx k).mapM fun (se, i) => runTile fn ops i se) = some rs ∧ gather (size sh) rs out = some out' ∧
        out'.length = size sh ∧
        ∀ p, p < size sh → ∃ y idx, out'[p]? = some y ∧ InB idx sh ∧ pos idx sh = p ∧ R (ops.map fun op => op.2.get op.1 idx) y := by
  have mono : ∀ (ses : List (List Nat × List Nat)) (off : Nat), Cover sh off ses → off ≤ size sh := by
    intro ses
    induction ses with
    | nil => intro off h; exact le_of_eq h
    | cons se r ih =>
      obtain ⟨s, e⟩ := se
      intro off h
      have := ih _ h.2
      omega
  intro ses
  induction ses with
  | nil =>
    intro k out hc ho
    have hc' : out.length = size sh := hc
    exact ⟨[], out, rfl, rfl, hc, fun p hp => ho p (by omega)⟩
  | cons se r ih =>
    obtain ⟨s, e⟩ := se
    intro k out hc ho
    obtain ⟨hb, hc⟩ := hc
    obtain ⟨b, w, xs, h1, h2, h3, h4⟩ := runTile_spec R fn ops hfn sh hops k s e _ hb
    have hlen : (out ++ xs).length = out.length + size (sliceShape s e (List.replicate sh.length 1)) := by
      rw [List.length_append, h3]
    rw [← hlen] at hc
    obtain ⟨rs, out', g1, g2, g3, g4⟩ := ih (k + 1) (out ++ xs) hc (by
      intro p hp
      rcases Nat.lt_or_ge p out.length with hlt | hge
      · obtain ⟨y, idx, q1, q2⟩ := ho p hlt
        exact ⟨y, idx, by rw [List.getElem?_append_left hlt, q1], q2⟩
      · obtain ⟨y, idx, q1, q2, q3, q4⟩ := h4 (p - out.length) (by rw [List.length_append] at hp; omega)
        exact ⟨y, idx, by rw [List.getElem?_append_right hge, q1], q2, by rw [q3]; omega, q4⟩)
    have hle := mono r _ hc
    refine ⟨(b, w) :: rs, out', ?_, ?_, g3, g4⟩
    · rw [List.zipIdx_cons, List.mapM_cons, g1]; simp only [h1]; rfl
    · unfold gather
      rw [h2]
      simp only [Option.bind_eq_bind, Option.bind_some]
      rw [if_neg (by omega)]
      exact g2

/-- the number of slices along the slicing dimension -/
theorem ceil_lt (D stride : Nat) (hst : 0 < stride) (c : Nat) :
    c * stride < D ↔ c < D / stride + (if D % stride ≠ 0 then 1 else 0) := by
  have h := Nat.div_add_mod D stride
  have hm := Nat.mod_lt D hst
  constructor
  · intro hc
    rcases Nat.lt_or_ge c (D / stride) with h1 | h1
    · omega
    · have : D / stride * stride ≤ c * stride := Nat.mul_le_mul_right _ h1
      rw [Nat.mul_comm] at this
      have h2 : D % stride ≠ 0 := by omega
      rw [if_pos h2]
      by_contra h3
      have : (D / stride + 1) * stride ≤ c * stride := Nat.mul_le_mul_right _ (by omega)
      rw [Nat.add_mul, Nat.mul_comm] at this
      omega
  · intro hc
    split_ifs at hc with h1
    · have : c * stride ≤ D / stride * stride := Nat.mul_le_mul_right _ (by omega)
      rw [Nat.mul_comm (D / stride)] at this
      omega
    · have : (c + 1) * stride ≤ D / stride * stride := Nat.mul_le_mul_right _ (by omega)
      rw [Nat.mul_comm (D / stride), Nat.add_mul] at this
      omega

/-- **C36** the tiles of a large array: consecutive blocks of the array in row-major order, from the first element to the last -/
theorem c36_tiles (block : Nat) (sh : List Nat) (hb : 0 < block) (hbig : block < size sh) :
    ∃ dim sn d ses, findSlice block sh.reverse 1 = (some dim, sn) ∧ 0 < sn ∧ 0 < block / sn ∧ sh[dim]? = some d ∧
      slices sh dim (block / sn) ((d / (block / sn) + (if d % (block / sn) ≠ 0 then 1 else 0)) * numel (sh.take dim))
        (List.replicate sh.length 0) (List.replicate dim 1 ++ (sh.drop dim).set 0 (block / sn)) = some ses ∧
      Cover sh 0 ses := by
  obtain ⟨Ir, D, Or, e1, e2, e3, e4⟩ := findSlice_spec block sh.reverse 1 hb (by rw [Nat.one_mul, size_reverse]; exact hbig)
  have hsh : sh = Or.reverse ++ D :: Ir.reverse := by
    have := congrArg List.reverse e1
    simpa using this
  obtain ⟨O, rfl⟩ : ∃ O, Or = O.reverse := ⟨Or.reverse, by simp⟩
  obtain ⟨I, rfl⟩ : ∃ I, Ir = I.reverse := ⟨Ir.reverse, by simp⟩
  simp only [List.reverse_reverse, List.length_reverse, size_reverse, Nat.one_mul] at *
  have hszpos : 0 < size sh := by omega
  have hall := size_pos_iff hszpos
  have hI : 0 < size I := by
    rcases Nat.eq_zero_or_pos (size I) with h | h
    · rw [h] at e4; omega
    · exact h
  have hst : 0 < block / size I := Nat.div_pos e3 hI
  have hstD : block / size I ≤ D := by
    have : block / size I < D := by rw [Nat.div_lt_iff_lt_mul hI, Nat.mul_comm]; exact e4
    omega
  have hOpos : 0 < size O := by
    rw [hsh, size_append] at hszpos
    exact Nat.pos_of_mul_pos_right hszpos
  have hz := InB_zeros hOpos
  have hpz := pos_zeros O
  obtain ⟨ses, s1, s2, s3⟩ := slices_spec O I D (block / size I) _ hstD hst (ceil_lt D _ hst)
    ((D / (block / size I) + (if D % (block / size I) ≠ 0 then 1 else 0)) * size O) (List.replicate O.length 0) 0 hz (by omega) (by
      rw [hpz]; ring)
  have hD : 0 < D := by omega
  refine ⟨O.length, size I, D, ses, e2, hI, hst, by rw [hsh]; simp, ?_, ?_⟩
  · rw [hsh] 
    have t1 : (O ++ D :: I).take O.length = O := by simp
    have t2 : (O ++ D :: I).drop O.length = D :: I := by simp
    have t3 : List.replicate (O ++ D :: I).length 0 = List.replicate O.length 0 ++ (0 * (block / size I)) :: List.replicate I.length 0 := by
      rw [Nat.zero_mul, ← List.replicate_succ, List.replicate_append_replicate]; simp
    have t4 : min ((0 + 1) * (block / size I)) D = block / size I := by omega
    rw [t1, t2, t3, numel_eq_size]
    rw [t4] at s1
    simpa using s1
  · have := s3 (by
      have : 0 < D / (block / size I) + (if D % (block / size I) ≠ 0 then 1 else 0) := (ceil_lt D _ hst 0).1 (by omega)
      positivity)
    rw [hpz] at this
    rw [hsh]
    simpa using this

/-- **C36** Tiled execution of an element-wise kernel: the result has the shape of the operands, and every element is related to the operand elements at
the same index as after running the kernel once -/
theorem c36_tiled {α β : Type} (R : List (Option α) → β → Prop) (block : Nat) (hb : 0 < block) (enabled : Bool) (fn : Kernel α β)
    (x : Nd α) (ys : List (Nd α)) (hfn : Elementwise (ys.length + 1) R fn) (hops : ∀ op ∈ x :: ys, op.2.Valid op.1 ∧ op.2.shape = x.2.shape) :
    ∃ b w, tiled block enabled fn x ys = some (b, w) ∧ w.shape = x.2.shape ∧ w.Valid b ∧ w.isCompact = true ∧
      ∀ idx, InB idx x.2.shape → ∃ y, w.get b idx = some y ∧ R ((x :: ys).map fun op => op.2.get op.1 idx) y := by
  unfold tiled
  rw [if_neg (by
    intro h
    rw [List.any_eq_true] at h
    obtain ⟨y, hy, hne⟩ := h
    rw [decide_eq_true_eq] at hne
    exact hne (hops y (by simp [hy])).2)]
  split_ifs with h1
  · exact hfn none _ _ rfl hops
  · have hbig : block < size x.2.shape := by
      rw [← numel_eq_size]
      simp only [Bool.or_eq_true, decide_eq_true_eq, not_or] at h1
      omega
    obtain ⟨dim, sn, d, ses, e1, e2, e3, e4, e5, e6⟩ := c36_tiles block x.2.shape hb hbig
    obtain ⟨rs, out, g1, g2, g3, g4⟩ := gather_spec R fn (x :: ys) hfn x.2.shape hops ses 0 [] e6 (fun p hp => absurd hp (by simp))
    have hget : ∀ idx, InB idx x.2.shape →
        (⟨x.2.shape, makeCompactStrides x.2.shape, 0⟩ : View).get out.toArray idx = out[pos idx x.2.shape]? := by
      intro idx hi
      have := get_compact (buf := out.toArray) (o := 0) hi
      simpa using this
    refine ⟨out.toArray, ⟨x.2.shape, makeCompactStrides x.2.shape, 0⟩, ?_, rfl, ⟨makeCompactStrides_length _, ?_⟩, by simp [View.isCompact], ?_⟩
    · rw [e1]
      simp only
      rw [if_neg (by omega), if_neg (by omega), e4]
      simp only [Option.bind_eq_bind, Option.bind_some]
      rw [e5]
      simp only [Option.bind_some]
      rw [g1]
      simp only [Option.bind_some]
      rw [numel_eq_size, g2]
      simp only [Option.bind_some]
      rw [if_neg (by omega)]
    · intro idx hi
      obtain ⟨y, _, h, _⟩ := g4 _ (pos_lt_size hi)
      exact ⟨y, by rw [hget idx hi, h]⟩
    · intro idx hi
      obtain ⟨y, idx', h, q1, q2, q3⟩ := g4 _ (pos_lt_size hi)
      rw [pos_inj q1 hi q2] at q3
      exact ⟨y, by rw [hget idx hi, h], q3⟩

/-- **C36** If the element relation is a function, tiling gives what the kernel gives when it is run once -/
theorem c36_transparent {α β : Type} (g : List (Option α) → β) (block : Nat) (hb : 0 < block) (enabled : Bool) (fn : Kernel α β)
    (x : Nd α) (ys : List (Nd α)) (hfn : Elementwise (ys.length + 1) (fun xs y => y = g xs) fn)
    (hops : ∀ op ∈ x :: ys, op.2.Valid op.1 ∧ op.2.shape = x.2.shape) :
    ∃ b w b' w', tiled block enabled fn x ys = some (b, w) ∧ fn none (x :: ys) = some (b', w') ∧ w.shape = w'.shape ∧
      ∀ idx, InB idx w'.shape → w.get b idx = w'.get b' idx := by
  obtain ⟨b, w, h1, h2, _, _, h3⟩ := c36_tiled _ block hb enabled fn x ys hfn hops
  obtain ⟨b', w', h1', h2', _, _, h3'⟩ := hfn none (x :: ys) _ rfl hops
  refine ⟨b, w, b', w', h1, h1', by rw [h2, h2'], fun idx hi => ?_⟩
  rw [h2'] at hi
  obtain ⟨y, e1, e2⟩ := h3 idx hi
  obtain ⟨y', e1', e2'⟩ := h3' idx hi
  rw [e1, e1', e2, e2']

/-- **C36** operands of different shapes are refused -/
theorem c36_shape_mismatch {α β : Type} (block : Nat) (enabled : Bool) (fn : Kernel α β) (x y : Nd α) (h : y.2.shape ≠ x.2.shape) :
    tiled block enabled fn x [y] = none := by
  unfold tiled
  rw [if_pos (by simp [h])]

/-! ## Examples -/

/-- a kernel that adds two arrays -/
def addKernel : Kernel Nat Nat := fun _ ops =>
  match ops with
  | [x, y] => do
    let xs ← (x.2.begin).bind fun it => iterRead x.1 it (numel x.2.shape)
    let ys ← (y.2.begin).bind fun it => iterRead y.1 it (numel y.2.shape)
    return ((List.zipWith (· + ·) xs ys).toArray, ⟨x.2.shape, makeCompactStrides x.2.shape, 0⟩)
  | _ => none

/-- a kernel that negates every element -/
def negKernel : Kernel Int Int := fun _ ops => do
  let x ← ops.head?
  let xs ← (x.2.begin).bind fun it => iterRead x.1 it (numel x.2.shape)
  return ((xs.map Neg.neg).toArray, ⟨x.2.shape, makeCompactStrides x.2.shape, 0⟩)

-- the tiles of a 2 x 3 x 2 array with blocks of 4 elements: two rows, then the rest of the plane
example : findSlice 4 [2, 3, 2] 1 = (some 1, 2) ∧ slices [2, 3, 2] 1 2 4 [0, 0, 0] [1, 2, 2] =
    some [([0, 0, 0], [1, 2, 2]), ([0, 2, 0], [1, 3, 2]), ([1, 0, 0], [2, 2, 2]), ([1, 2, 0], [2, 3, 2])] := by decide +kernel

-- a transposed and a plain operand
example : tiled 2 true addKernel (#[1, 2, 3, 4, 5, 6], ⟨[3, 2], [1, 3], 0⟩) [(#[10, 20, 30, 40, 50, 60], ⟨[3, 2], [2, 1], 0⟩)] =
    some (#[11, 24, 32, 45, 53, 66], ⟨[3, 2], [2, 1], 0⟩) := by decide +kernel

/-- the hypothesis on kernels is met -/
theorem negKernel_elementwise : Elementwise 1 (fun xs y => y = -((xs.head?.join).getD 0)) negKernel := by
  intro ctx ops sh hlen hops
  obtain ⟨x, rfl⟩ := List.length_eq_one_iff.1 hlen
  obtain ⟨hv, hsh⟩ := hops x (by simp)
  obtain ⟨it, xs, h1, h2, h3, h4⟩ := readAll_spec hv
  have hg : ∀ idx, InB idx x.2.shape →
      (⟨x.2.shape, makeCompactStrides x.2.shape, 0⟩ : View).get (xs.map Neg.neg).toArray idx = (x.2.get x.1 idx).map Neg.neg := by
    intro idx hi
    have := get_compact (buf := (xs.map Neg.neg).toArray) (o := 0) hi
    rw [h4 idx hi]
    simpa using this
  refine ⟨(xs.map Neg.neg).toArray, ⟨x.2.shape, makeCompactStrides x.2.shape, 0⟩, ?_, hsh, ⟨makeCompactStrides_length _, ?_⟩,
    by simp [View.isCompact], ?_⟩
  · simp [negKernel, h1, h2]
  · intro idx hi
    obtain ⟨y, hy⟩ := hv.2 idx hi
    exact ⟨-y, by rw [hg idx hi, hy]; rfl⟩
  · intro idx hi
    rw [← hsh] at hi
    obtain ⟨y, hy⟩ := hv.2 idx hi
    exact ⟨-y, by rw [hg idx hi, hy]; rfl, by simp [hy]⟩

example : (tiled 2 true negKernel (#[1, 2, 3, 4, 5, 6], ⟨[3, 2], [1, 3], 0⟩) []).bind (fun r => r.2.get r.1 [1, 0]) = some (-2) := by
  decide +kernel

/-- Finding: `tiled` copies from the data pointer of the results, so a kernel that returns a strided view (here its operand) gives a wrong result,
although running it once gives the right one -/
theorem c36_strided_result :
    let fn : Kernel Nat Nat := fun _ ops => ops.head?
    let x : Nd Nat := (#[1, 2, 3, 4], ⟨[2, 2], [1, 2], 0⟩)
    (fn none [x]).bind (fun r => r.2.get r.1 [0, 1]) = some 3 ∧
    (tiled 2 true fn x []).bind (fun r => r.2.get r.1 [0, 1]) = some 2 := by
  decide +kernel

end Spu.Props

import Verif.Props.ReduceWin
import Mathlib.Algebra.Ring.Int.Defs

set_option autoImplicit false

/-!
# C74: scatter of windows
-/

namespace Spu.Props
open Spu.Spec Spu.Model Spu.Lemmas Spu.Lemmas.T Spu.Model.RW

variable {β R : Type} [CommRing R]

theorem concat_gen {α : Type} {l : List (Ten α)} (hl : l ≠ []) {d : ℕ} {ds : List ℕ} (hs : ∀ u ∈ l, u.shape = d :: ds) :
    ∃ r, Ten.concat0 l = some r ∧ r.shape = (l.length * d) :: ds ∧
      ∀ k (hk : k < l.length) x i, x < d → r.get ((k * d + x) :: i) = l[k].get (x :: i) := by
  cases l with
  | nil => exact absurd rfl hl
  | cons t ts =>
    have h1 := hs t (by simp)
    obtain ⟨tsh, tg⟩ := t
    simp only at h1
    subst h1
    simp only [Ten.concat0]
    rw [if_pos (by simpa using fun u hu => hs u (by simp [hu]))]
    refine ⟨_, rfl, by simp, fun k hk x i hx => ?_⟩
    have e1 : (k * d + x) / d = k := by rw [Nat.mul_comm, Nat.mul_add_div (by omega), Nat.div_eq_of_lt hx, Nat.add_zero]
    have e2 : (k * d + x) % d = x := by rw [Nat.mul_comm, Nat.mul_add_mod, Nat.mod_eq_of_lt hx]
    simp only [List.headD_cons, List.tail_cons, e1, e2]
    rw [List.getD_eq_getElem?_getD, List.getElem?_eq_getElem hk, Option.getD_some]

theorem pad_exact {B W S D N : List ℕ} (h : Windows B W S D N) (hD : D.all (· = 1) = true) (hc : Covered B W S N) {w : List ℕ}
    (hw : InB w W) : deducePadShape N (w.map Int.ofNat) (List.zipWith (fun (w : ℕ) (i : ℕ) => (w : Int) - i - 1) W w)
      (S.map (· - 1)) = some B := by
  unfold Covered at hc
  induction h generalizing w with
  | nil => cases hw; rfl
  | @cons b x s d n B W S D N h1 h2 h3 h4 h5 h6 _ ih =>
    cases hw with
    | @cons k _ ks _ hk hks =>
      simp only [List.length_cons, List.replicate_succ, List.map_cons, winAt, List.cons.injEq] at hc
      simp only [List.all_cons, Bool.and_eq_true] at hD
      simp only [List.map_cons, List.zipWith_cons_cons, deducePadShape, ih hD.2 hc.2 hks, Option.bind_eq_bind, Option.bind_some]
      obtain ⟨m, rfl⟩ : ∃ m, n = m + 1 := ⟨n - 1, by omega⟩
      obtain ⟨z, rfl⟩ : ∃ z, s = z + 1 := ⟨s - 1, by omega⟩
      have e : (Int.ofNat k + ((x : Int) - k - 1) + ((z + 1 - 1 : ℕ) : Int) * (((m + 1 : ℕ) : Int) - 1) + ((m + 1 : ℕ) : Int)) = (b : Int) := by
        rw [hc.1]
        simp only [Nat.add_sub_cancel, Nat.mul_one]
        rw [Int.ofNat_eq_natCast]
        have : ((x - 1 : ℕ) : Int) = x - 1 := by omega
        push_cast [this]
        ring
      rw [e, if_neg (by omega)]
      simp

theorem padSrc_iff {B W S D N : List ℕ} (h : Windows B W S D N) (hD : D.all (· = 1) = true) {w b : List ℕ} (hw : InB w W)
    (hb : b.length = B.length) (n : List ℕ) :
    Ten.padSrc N (w.map Int.ofNat) (S.map (· - 1)) b = some n ↔ InB n N ∧ winAt S D n w = b := by
  induction h generalizing w b n with
  | nil =>
    cases hw
    have : b = [] := by simpa using hb
    subst this
    simp only [List.map_nil, Ten.padSrc, Option.some_inj]
    constructor
    · rintro rfl; exact ⟨.nil, rfl⟩
    · rintro ⟨h, _⟩; cases h; rfl
  | @cons bb x s d m B W S D N h1 h2 h3 h4 h5 h6 _ ih =>
    cases hw with
    | @cons k _ ks _ hk hks =>
      cases b with
      | nil => simp at hb
      | cons y ys =>
        simp only [List.all_cons, Bool.and_eq_true, decide_eq_true_eq] at hD
        obtain ⟨rfl, hD⟩ := hD
        have ih := ih hD hks (b := ys) (by simpa using hb)
        simp only [List.map_cons, Ten.padSrc]
        rw [show s - 1 + 1 = s by omega]
        constructor
        · intro hx
          split at hx
          · rename_i hc
            obtain ⟨n', hn', rfl⟩ := Option.map_eq_some_iff.1 hx
            obtain ⟨i1, i2⟩ := (ih n').1 hn'
            refine ⟨.cons hc.2.2 i1, ?_⟩
            simp only [winAt, i2, List.cons.injEq, and_true]
            have := Nat.div_mul_cancel (Nat.dvd_of_mod_eq_zero hc.2.1)
            rw [this]
            simp only [Int.ofNat_eq_natCast] at hc ⊢
            omega
          · cases hx
        · rintro ⟨hi, hx⟩
          cases hi with
          | @cons q _ qs _ hq hqs =>
            simp only [winAt, List.cons.injEq] at hx
            have e : ((y : Int) - Int.ofNat k).toNat = q * s := by
              rw [← hx.1, Int.ofNat_eq_natCast]; omega
            rw [e, if_pos ⟨by rw [← hx.1, Int.ofNat_eq_natCast]; omega, by simp, by rw [Nat.mul_div_cancel _ h2]; exact hq⟩,
              (ih qs).2 ⟨hqs, hx.2⟩, Nat.mul_div_cancel _ h2]
            rfl

theorem sum_one {l : List (List ℕ)} (hl : l.Nodup) {n0 : List ℕ} (h0 : n0 ∈ l) (P : List ℕ → Prop) [DecidablePred P]
    (hP : ∀ n ∈ l, P n ↔ n = n0) (f : List ℕ → R) : (l.map fun n => if P n then f n else 0).sum = f n0 := by
  induction l with
  | nil => simp at h0
  | cons a l ih =>
    rw [List.nodup_cons] at hl
    rw [List.map_cons, List.sum_cons]
    rcases List.mem_cons.1 h0 with rfl | h1
    · rw [if_pos ((hP _ (by simp)).2 rfl)]
      have : (l.map fun n => if P n then f n else 0) = l.map fun _ => 0 := by
        apply List.map_congr_left
        intro n hn
        rw [if_neg]
        rw [hP n (by simp [hn])]
        rintro rfl; exact hl.1 hn
      rw [this]; simp
    · rw [if_neg (by rw [hP a (by simp)]; rintro rfl; exact hl.1 h1), zero_add]
      exact ih hl.2 h1 fun n hn => hP n (by simp [hn])

theorem sum_none (l : List (List ℕ)) (P : List ℕ → Prop) [DecidablePred P] (hP : ∀ n ∈ l, ¬ P n) (f : List ℕ → R) :
    (l.map fun n => if P n then f n else 0).sum = 0 := by
  have : (l.map fun n => if P n then f n else 0) = l.map fun _ => 0 :=
    List.map_congr_left fun n hn => if_neg (hP n hn)
  rw [this]; simp

theorem sum_swap {γ δ : Type} (l : List γ) (m : List δ) (f : γ → δ → R) :
    (l.map fun a => (m.map fun b => f a b).sum).sum = (m.map fun b => (l.map fun a => f a b).sum).sum := by
  induction l with
  | nil => simp
  | cons a l ih => simp only [List.map_cons, List.sum_cons, ih, List.sum_map_add]

theorem foldAll_add {xs : List R} {v : R} (h : foldAll (· + ·) xs = some v) : v = xs.sum := by
  cases xs with
  | nil => cases h
  | cons x xs =>
    cases h
    rw [List.sum_cons]
    induction xs generalizing x with
    | nil => simp
    | cons y ys ih => rw [List.foldl_cons, ih, List.sum_cons, add_assoc]

/-- what the padding puts at `b` for place `w` of the windows -/
def spread (N S : List ℕ) (init : R) (f : List ℕ → R) (w b : List ℕ) : R :=
  match Ten.padSrc N (w.map Int.ofNat) (S.map (· - 1)) b with
  | some n => f n
  | none => init

theorem place_spec {B W S D N : List ℕ} (h : Windows B W S D N) (hD : D.all (· = 1) = true) (hc : Covered B W S N) (init : R)
    (sel : Ten R) (hs : sel.shape = [size N, size W]) {w : List ℕ} (hw : InB w W) :
    ∃ p, scatterPlace init B W S N sel (pos w W) = some p ∧ p.shape = B ∧
      ∀ b, InB b B → p.get b = spread N S init (fun n => sel.get [pos n N, pos w W]) w b := by
  have hlt := pos_lt_size hw
  obtain ⟨u, u1, u2, u3⟩ : ∃ u, sel.slice [0, pos w W] [size N, pos w W + 1] [1, 1] = some u ∧ u.shape = [size N, 1] ∧
      ∀ p, u.get [p, 0] = sel.get [p, pos w W] := by
    unfold Ten.slice
    rw [hs, if_pos ⟨by simp [Ten.fits]; omega, rfl, rfl, by simp⟩]
    refine ⟨_, rfl, by simp [sliceShape], fun p => by simp [affine]⟩
  obtain ⟨v, v1⟩ := reshape_isSome (t := u) (sh := N) (by rw [u2]; simp [size])
  obtain ⟨v2, v3⟩ := reshape_spec v1
  have v4 : ∀ n, InB n N → v.get n = sel.get [pos n N, pos w W] := by
    intro n hn
    rw [v3 n [pos n N, 0] hn (by rw [u2]; exact .cons (pos_lt_size hn) (.cons (by omega) .nil)) (by rw [u2]; simp [pos, size]), u3]
  have hpad := pad_exact h hD hc hw
  refine ⟨⟨B, fun j => spread N S init v.get w j⟩, ?_, rfl, fun b hb => ?_⟩
  · unfold scatterPlace
    simp only [u1, v1, unflatten_of_InB hw, Option.bind_eq_bind, Option.bind_some, Ten.pad, v2, hpad, Option.map_some, if_true]
    rfl
  · unfold spread
    simp only
    cases hp : Ten.padSrc N (w.map Int.ofNat) (S.map (· - 1)) b with
    | none => rfl
    | some n => exact v4 n ((padSrc_iff h hD hw (InB.length hb) n).1 hp).1

theorem treeAxis_first {α : Type} (op : α → α → α) {sh : List ℕ} {L : ℕ} (hL : 0 < L) (t : Ten α) (ht : t.shape = L :: sh) :
    (treeAxis op 0 t).shape = 1 :: sh ∧ ∀ i, (treeAxis op 0 t).get (0 :: i) =
      (treeReduce op ((List.range L).map fun k => t.get (k :: i))).headD (t.get (0 :: i)) := by
  have h1 : t.shape.getD 0 0 = L := by rw [ht]; simp
  unfold treeAxis
  refine ⟨?_, fun i => ?_⟩
  · simp only [h1]
    rw [ht, List.set_cons_zero, Nat.min_eq_right hL]
  · simp only [h1, List.set_cons_zero]

/-- `ScatterWindow` with any commutative scatter function and any initial value: place by place of the windows -/
theorem scatterWin_spec (scatter : R → R → R) (ha : ∀ a b c, scatter (scatter a b) c = scatter a (scatter b c))
    (hcm : ∀ a b, scatter a b = scatter b a) (init : R) {B W S D N : List ℕ} (h : Windows B W S D N)
    (hD : D.all (· = 1) = true) (hc : Covered B W S N) (hr : N ≠ []) (source : Ten R) (hs : source.shape = N) (onehot : Ten Bool)
    (ho : onehot.shape = N ++ [size W]) :
    ∃ r, scatterWindow scatter init B W S source onehot = some r ∧ r.shape = B ∧ ∀ b, InB b B →
      foldAll scatter ((allIdx W).map fun w =>
        spread N S init (fun n => source.get n * (if onehot.get (n ++ [pos w W]) then 1 else 0)) w b) = some (r.get b) := by
  obtain ⟨l1, l2, l3, l4⟩ := Windows.lengths h
  obtain ⟨p1, p2⟩ := Windows.pos h
  obtain ⟨oh, o1⟩ := reshape_isSome (t := onehot) (sh := [size N, size W]) (by rw [ho, size_append, size_single]; simp [size])
  obtain ⟨o2, o3⟩ := reshape_spec o1
  obtain ⟨s1, q1⟩ := reshape_isSome (t := source) (sh := [size N]) (by rw [hs, size_single])
  obtain ⟨q2, q3⟩ := reshape_spec q1
  let sel : Ten R := ⟨[size N, size W], fun i => s1.get (i.take 1) * (if oh.get i then 1 else 0)⟩
  have hsel : ∀ n w, InB n N → InB w W →
      sel.get [pos n N, pos w W] = source.get n * (if onehot.get (n ++ [pos w W]) then 1 else 0) := by
    intro n w hn hw
    have hwl := pos_lt_size hw
    have hnl := pos_lt_size hn
    simp only [sel, List.take_succ_cons, List.take_zero]
    rw [q3 [pos n N] n (InB_single hnl) (by rw [hs]; exact hn) (by rw [pos_single, hs]),
      o3 [pos n N, pos w W] (n ++ [pos w W]) (.cons hnl (.cons hwl .nil)) (by rw [ho]; exact InB_append hn (InB_single hwl))
        (by rw [ho, pos_append hn, pos_single, size_single]; simp [pos, size])]
  classical
  have hp : ∀ w, InB w W → ∃ p, scatterPlace init B W S N sel (pos w W) = some p ∧ p.shape = B ∧ ∀ b, InB b B → p.get b =
      spread N S init (fun n => source.get n * (if onehot.get (n ++ [pos w W]) then 1 else 0)) w b := by
    intro w hw
    obtain ⟨p, a1, a2, a3⟩ := place_spec h hD hc init sel rfl hw
    refine ⟨p, a1, a2, fun b hb => ?_⟩
    rw [a3 b hb]
    unfold spread
    cases hq : Ten.padSrc N (w.map Int.ofNat) (S.map (· - 1)) b with
    | none => rfl
    | some n => exact hsel n w ((padSrc_iff h hD hw (InB.length hb) n).1 hq).1 hw
  let g : List ℕ → Ten R := fun w => if hw : InB w W then (hp w hw).choose else source
  have hg : ∀ w (hw : InB w W), g w = (hp w hw).choose := fun w hw => by simp only [g]; rw [dif_pos hw]
  have hmap : (List.range (size W)).mapM (scatterPlace init B W S N sel) = some ((allIdx W).map g) := by
    rw [← map_pos_allIdx, List.mapM_map]
    apply mapM_some
    intro w hw
    have hw := mem_allIdx.1 hw
    rw [hg w hw]; exact (hp w hw).choose_spec.1
  obtain ⟨d, ds, hB⟩ : ∃ d ds, B = d :: ds := by
    cases B with
    | nil => exact absurd (List.eq_nil_of_length_eq_zero (by rw [← l1]; rfl)) hr
    | cons d ds => exact ⟨d, ds, rfl⟩
  obtain ⟨c, c1, c2, c3⟩ := concat_gen (l := (allIdx W).map g) (d := d) (ds := ds)
    (by intro h0; have := congrArg List.length h0; simp [length_allIdx] at this; omega) (by
      intro u hu'
      obtain ⟨w, hw, rfl⟩ := List.mem_map.1 hu'
      have hw := mem_allIdx.1 hw
      rw [hg w hw, ← hB]; exact (hp w hw).choose_spec.2.1)
  rw [List.length_map, length_allIdx] at c2
  obtain ⟨e, e1⟩ := reshape_isSome (t := c) (sh := size W :: B) (by rw [c2, hB]; simp [size, Nat.mul_assoc])
  obtain ⟨e2, e3⟩ := reshape_spec e1
  obtain ⟨t1, t2⟩ := treeAxis_first scatter p2 e e2
  obtain ⟨r, r1⟩ := reshape_isSome (t := treeAxis scatter 0 e) (sh := B) (by rw [t1]; simp [size])
  obtain ⟨r2, r3⟩ := reshape_spec r1
  refine ⟨r, ?_, r2, fun b hb => ?_⟩
  · unfold scatterWindow
    simp only [hs]
    rw [if_neg (by simp [ho, l2, l3])]
    simp only [o1, q1, Option.bind_eq_bind, Option.bind_some, Ten.zip, o2, if_true]
    rw [hmap]
    simp only [Option.bind_some, c1, e1, r1]
  · have hline : (List.range (size W)).map (fun k => e.get (k :: b)) = (allIdx W).map fun w =>
        spread N S init (fun n => source.get n * (if onehot.get (n ++ [pos w W]) then 1 else 0)) w b := by
      rw [← map_pos_allIdx, List.map_map]
      apply List.map_congr_left
      intro w hw
      have hw := mem_allIdx.1 hw
      have hwl := pos_lt_size hw
      simp only [Function.comp_apply]
      obtain ⟨x, xs, hbx⟩ : ∃ x xs, b = x :: xs := by
        rw [hB] at hb
        cases hb with
        | cons _ _ => exact ⟨_, _, rfl⟩
      have hb' := hb
      rw [hB, hbx] at hb'
      cases hb' with
      | cons hx hxs =>
        have hin : (pos w W * d + x) < size W * d := by
          calc pos w W * d + x < pos w W * d + d := by omega
            _ = (pos w W + 1) * d := by ring
            _ ≤ size W * d := Nat.mul_le_mul_right _ hwl
        rw [e3 (pos w W :: b) ((pos w W * d + x) :: xs) (.cons hwl hb) (by rw [c2]; exact .cons hin hxs)
          (by rw [c2, hbx, hB]; simp only [pos, size]; ring),
          c3 (pos w W) (by simpa [length_allIdx] using hwl) x xs hx]
        have hget : (allIdx W)[pos w W]'(by rw [length_allIdx]; exact hwl) = w := by
          have := getElem_allIdx hw
          rw [List.getElem?_eq_getElem (by rw [length_allIdx]; exact hwl)] at this
          exact Option.some_inj.1 this
        rw [List.getElem_map, hget, hg w hw, ← hbx]
        exact (hp w hw).choose_spec.2.2 b hb
    rw [r3 b (0 :: b) hb (by rw [t1]; exact .cons (by omega) hb) (by rw [t1]; simp [pos]), t2, hline]
    exact foldAll_line scatter ha hcm _ (by rw [List.length_map, length_allIdx]; exact p2) _

/-- C74 (`MaxPoolScatter`): the element at `b` is the sum of the source elements of all windows whose mark lies on `b`. -/
theorem c74_scatter {B W S D N : List ℕ} (h : Windows B W S D N) (hD : D.all (· = 1) = true) (hc : Covered B W S N)
    (hr : N ≠ []) (source : Ten R) (hs : source.shape = N) (onehot : Ten Bool) (ho : onehot.shape = N ++ [size W]) :
    ∃ r, maxPoolScatter B W S source onehot = some r ∧ r.shape = B ∧ ∀ b, InB b B →
      r.get b = ((allIdx N).map fun n => ((allIdx W).map fun w =>
        if winAt S D n w = b ∧ onehot.get (n ++ [pos w W]) = true then source.get n else 0).sum).sum := by
  obtain ⟨r, r1, r2, r3⟩ := scatterWin_spec (· + ·) add_assoc add_comm 0 h hD hc hr source hs onehot ho
  refine ⟨r, r1, r2, fun b hb => ?_⟩
  rw [foldAll_add (r3 b hb), sum_swap]
  congr 1
  apply List.map_congr_left
  intro w hw
  have hw := mem_allIdx.1 hw
  unfold spread
  cases hp : Ten.padSrc N (w.map Int.ofNat) (S.map (· - 1)) b with
  | none =>
    simp only
    symm
    apply sum_none
    intro n hn hx
    have := (padSrc_iff h hD hw (InB.length hb) n).2 ⟨mem_allIdx.1 hn, hx.1⟩
    rw [hp] at this; cases this
  | some n0 =>
    simp only
    obtain ⟨i1, i2⟩ := (padSrc_iff h hD hw (InB.length hb) n0).1 hp
    have huniq : ∀ n ∈ allIdx N, winAt S D n w = b ↔ n = n0 := by
      intro n hn
      constructor
      · intro hx
        have := (padSrc_iff h hD hw (InB.length hb) n).2 ⟨mem_allIdx.1 hn, hx⟩
        rw [hp] at this
        exact (Option.some_inj.1 this).symm
      · rintro rfl; exact i2
    have := sum_one (nodup_allIdx N) (mem_allIdx.2 i1) (fun n => winAt S D n w = b) huniq
      (fun n => source.get n * (if onehot.get (n ++ [pos w W]) then 1 else 0))
    rw [← this]
    congr 1
    apply List.map_congr_left
    intro n _
    by_cases h1 : winAt S D n w = b <;> by_cases h2 : onehot.get (n ++ [pos w W]) = true <;> simp [h1, h2]

/-- the sum over a window with one mark -/
theorem sum_mark {W S D n : List ℕ} (b : List ℕ) (x : R) (m : ℕ → Bool) {w0 : List ℕ} (hw0 : InB w0 W)
    (hm : ∀ w, InB w W → m (pos w W) = decide (pos w W = pos w0 W)) :
    ((allIdx W).map fun w => if winAt S D n w = b ∧ m (pos w W) = true then x else 0).sum =
      if winAt S D n w0 = b then x else 0 := by
  have hiff : ∀ w ∈ allIdx W, m (pos w W) = true ↔ w = w0 := by
    intro w hw
    have hw := mem_allIdx.1 hw
    rw [hm w hw, decide_eq_true_eq]
    constructor
    · intro h; exact pos_inj hw hw0 h
    · rintro rfl; rfl
  have := sum_one (nodup_allIdx W) (mem_allIdx.2 hw0) (fun w => m (pos w W) = true) hiff
    (fun w => if winAt S D n w = b then x else 0)
  rw [← this]
  congr 1
  apply List.map_congr_left
  intro w _
  by_cases h1 : winAt S D n w = b <;> by_cases h2 : m (pos w W) = true <;> simp [h1, h2]

/-- C74 (max-pooling and its gradient): the masks of `ArgMax`, given to `MaxPoolScatter`, send the gradient of every window to
one place of the window that holds its largest element, and to no other. -/
theorem c74_maxpool [LinearOrder β] {W S D N : List ℕ} (t : Ten β) (h : Windows t.shape W S D N) (hD : D.all (· = 1) = true)
    (hc : Covered t.shape W S N) (hr : N ≠ []) (source : Ten R) (hs : source.shape = N) :
    ∃ am r, argMax W S N t = some am ∧ maxPoolScatter t.shape W S source
        ⟨N ++ [size W], fun i => (am.get (i.take N.length)).2 (i.getD N.length 0)⟩ = some r ∧ r.shape = t.shape ∧
      ∃ sel : List ℕ → List ℕ, (∀ n, InB n N → InB (sel n) W ∧
          ∀ w, InB w W → t.get (winAt S D n w) ≤ t.get (winAt S D n (sel n))) ∧
        ∀ b, InB b t.shape → r.get b = ((allIdx N).map fun n => if winAt S D n (sel n) = b then source.get n else 0).sum := by
  obtain ⟨am, a1, a2, a3⟩ := c74_argmax t h hD
  obtain ⟨r, r1, r2, r3⟩ := c74_scatter (R := R) h hD hc hr source hs
    ⟨N ++ [size W], fun i => (am.get (i.take N.length)).2 (i.getD N.length 0)⟩ rfl
  classical
  refine ⟨am, r, a1, r1, r2, fun n => if hn : InB n N then (a3 n hn).choose else [], fun n hn => ?_, fun b hb => ?_⟩
  · simp only [dif_pos hn]
    obtain ⟨c1, c2, c3, _⟩ := (a3 n hn).choose_spec
    refine ⟨c1, fun w hw => ?_⟩
    rw [← c2]; exact c3 w hw
  · rw [r3 b hb]
    congr 1
    apply List.map_congr_left
    intro n hn
    have hn := mem_allIdx.1 hn
    obtain ⟨c1, _, _, c4⟩ := (a3 n hn).choose_spec
    simp only [dif_pos hn]
    have hlen := InB.length hn
    have h1 : ∀ k, (n ++ [k]).take N.length = n := fun k => by rw [← hlen]; simp
    have h2 : ∀ k, (n ++ [k]).getD N.length 0 = k := fun k => by rw [← hlen]; simp
    simp only [h1, h2]
    exact sum_mark b _ (am.get n).2 c1 fun w _ => c4 _

/-- C74 (`SelectAndScatter` with `≥` and addition, initial value 0): every window sends its source element to one place that
holds its largest element. -/
theorem c74_select_scatter [LinearOrder β] {W S D N : List ℕ} (t : Ten β) (h : Windows t.shape W S D N)
    (hD : D.all (· = 1) = true) (hc : Covered t.shape W S N) (hr : N ≠ []) (source : Ten R) (hs : source.shape = N) :
    ∃ r, selectAndScatter (fun a b => decide (b ≤ a)) (· + ·) 0 W S t source = some r ∧ r.shape = t.shape ∧
      ∃ sel : List ℕ → List ℕ, (∀ n, InB n N → InB (sel n) W ∧
          ∀ w, InB w W → t.get (winAt S D n w) ≤ t.get (winAt S D n (sel n))) ∧
        ∀ b, InB b t.shape → r.get b = ((allIdx N).map fun n => if winAt S D n (sel n) = b then source.get n else 0).sum := by
  obtain ⟨p1, p2⟩ := Windows.pos h
  obtain ⟨e, e1, e2, e3⟩ := expand_spec h hD t rfl
  obtain ⟨f, f1⟩ := reshape_isSome (t := e) (sh := [size N, size W]) (by rw [e2, size_append]; simp [size])
  obtain ⟨f2, f3⟩ := reshape_spec f1
  let op : β × ℕ → β × ℕ → β × ℕ := fun l r => if decide (r.1 ≤ l.1) = true then l else r
  let m : Ten (β × ℕ) := ⟨f.shape, fun i => (f.get i, i.getD 1 0)⟩
  obtain ⟨g1, g2⟩ := treeAxis_last op (sh := [size N]) p2 m f2
  have hpick : ∀ n, InB n N → ∃ w0, InB w0 W ∧ (∀ w, InB w W → t.get (winAt S D n w) ≤ t.get (winAt S D n w0)) ∧
      ((treeAxis op 1 m).get [pos n N, 0]).2 = pos w0 W := by
    intro n hn
    have hline : ((List.range (size W)).map fun k => m.get ([pos n N] ++ [k])) =
        (allIdx W).map fun w => (t.get (winAt S D n w), pos w W) := by
      rw [← map_pos_allIdx, List.map_map]
      apply List.map_congr_left
      intro w hw
      have hw := mem_allIdx.1 hw
      simp only [Function.comp_apply, m, List.cons_append, List.nil_append]
      rw [f3 [pos n N, pos w W] (n ++ w) (.cons (pos_lt_size hn) (.cons (pos_lt_size hw) .nil)) (by rw [e2]; exact InB_append hn hw)
        (by rw [e2, pos_append hn]; simp [pos, size]), e3 n w hn hw]
      simp
    obtain ⟨r, r1, r2, r3⟩ := treeReduce_pick op (fun x => x.1)
      (by
        intro a b
        by_cases hab : b.1 ≤ a.1
        · left; simp [op, hab]
        · right; simp [op, hab])
      (by
        intro a b
        by_cases hab : b.1 ≤ a.1
        · simp [op, hab]
        · simp [op, hab, max_eq_right (not_le.1 hab).le])
      ((allIdx W).map fun w => (t.get (winAt S D n w), pos w W)) (by
        intro h0
        have := congrArg List.length h0
        simp [length_allIdx] at this; omega)
    have hu := g2 [pos n N] rfl
    rw [hline, r1] at hu
    obtain ⟨w0, hw0, rfl⟩ := List.mem_map.1 r2
    refine ⟨w0, mem_allIdx.1 hw0, fun w hw => ?_, ?_⟩
    · exact r3 _ (List.mem_map_of_mem (f := fun w => (t.get (winAt S D n w), pos w W)) (mem_allIdx.2 hw))
    · have hu' : (treeAxis op 1 m).get [pos n N, 0] = (t.get (winAt S D n w0), pos w0 W) := hu
      rw [hu']
  let oh : Ten Bool := ⟨[size N, size W], fun i => decide (((treeAxis op 1 m).get [i.getD 0 0, 0]).2 = i.getD 1 0)⟩
  obtain ⟨o, o1⟩ := reshape_isSome (t := oh) (sh := N ++ [size W]) (by rw [size_append, size_single]; simp [oh, size])
  obtain ⟨o2, o3⟩ := reshape_spec o1
  obtain ⟨r, r1, r2, r3⟩ := c74_scatter (R := R) h hD hc hr source hs o o2
  classical
  refine ⟨r, ?_, r2, fun n => if hn : InB n N then (hpick n hn).choose else [], fun n hn => ?_, fun b hb => ?_⟩
  · unfold selectAndScatter
    simp only [hs, e1, Option.bind_eq_bind, Option.bind_some, e2, ne_eq, not_true_eq_false, if_false, f1]
    have : oh.reshape (N ++ [size W]) = some o := o1
    simp only [oh, m, op] at this
    rw [this]
    exact r1
  · simp only [dif_pos hn]
    exact ⟨(hpick n hn).choose_spec.1, (hpick n hn).choose_spec.2.1⟩
  · rw [r3 b hb]
    congr 1
    apply List.map_congr_left
    intro n hn
    have hn := mem_allIdx.1 hn
    simp only [dif_pos hn]
    obtain ⟨c1, _, c3⟩ := (hpick n hn).choose_spec
    apply sum_mark b _ (fun k => o.get (n ++ [k])) c1
    intro w hw
    have hwl := pos_lt_size hw
    rw [o3 (n ++ [pos w W]) [pos n N, pos w W] (InB_append hn (InB_single hwl)) (.cons (pos_lt_size hn) (.cons hwl .nil))
      (by rw [pos_append hn, pos_single, size_single]; simp [oh, pos, size])]
    simp only [oh, List.getD_cons_zero, List.getD_cons_succ]
    exact decide_eq_decide.2 ⟨fun hx => hx.symm.trans c3, fun hx => c3.trans hx.symm⟩

/-- the values of a tensor of rank 1 -/
def vals {α : Type} (r : Option (Ten α)) : Option (List α) := r.map fun u => (List.range (size u.shape)).map fun k => u.get [k]

example : Windows lineT.shape [3] [2] [1] [2] ∧ Covered lineT.shape [3] [2] [2] ∧
    vals (selectAndScatter (fun a b => decide (b ≤ a)) (· + ·) 0 [3] [2] lineT (⟨[2], fun i => 10 + i.getD 0 0⟩ : Ten ℤ)) =
      some [0, 0, 10, 0, 11] := by
  refine ⟨.cons ?_ ?_ ?_ ?_ ?_ ?_ .nil, rfl, ?_⟩ <;> decide +kernel

/-- C74 (finding): if the windows do not reach the last element, nothing is scattered — the call fails. -/
theorem c74_scatter_edge :
    (numWin [6] [3] [2] = some [2]) ∧
    (selectAndScatter (fun a b => decide (b ≤ a)) (· + ·) (0 : ℤ) [3] [2] (⟨[6], fun i => i.getD 0 0⟩ : Ten ℕ)
      ⟨[2], fun _ => 1⟩).isNone := by decide +kernel

/-- C74 (finding): an initial value that is not 0 is added once per place that no window puts there, and places of a window
that are not selected count as 0 for any scatter function: with maximum, negative values are lost. -/
theorem c74_scatter_init :
    vals (selectAndScatter (fun a b => decide (b ≤ a)) (· + ·) 100 [3] [2] lineT (⟨[2], fun _ => 1⟩ : Ten ℤ)) =
      some [200, 200, 101, 200, 201] ∧
    vals (selectAndScatter (fun a b => decide (b ≤ a)) max (-100) [3] [2] lineT (⟨[2], fun _ => -7⟩ : Ten ℤ)) =
      some [0, 0, 0, 0, -7] := by decide +kernel

/-- C74 (finding): among equal elements the place is not the first one, as a sequential selection with `≥` has it. -/
theorem c74_select_tie :
    vals (selectAndScatter (fun a b => decide (b ≤ a)) (· + ·) 0 [4] [1] (⟨[4], fun i => [1, 5, 5, 1].getD (i.getD 0 0) 0⟩ : Ten ℕ)
      (⟨[1], fun _ => 9⟩ : Ten ℤ)) = some [0, 0, 9, 0] := by decide +kernel

end Spu.Props

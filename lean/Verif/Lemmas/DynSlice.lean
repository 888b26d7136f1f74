import Verif.Model.DynSlice
import Verif.Spec.DynSlice
import Verif.Lemmas.Contract

set_option autoImplicit false

/-! # Lemmas about dynamic slices -/

namespace Spu.Lemmas.T
open Spu.Spec Spu.Model Spu.Lemmas Spu.Props Spu.Model.Con Spu.Model.Dyn

variable {α : Type}

theorem InB_zero {sh : List ℕ} (h : 0 ∉ sh) : InB (List.replicate sh.length 0) sh := by
  induction sh with
  | nil => exact .nil
  | cons d ds ih =>
    simp only [List.mem_cons, not_or] at h
    exact .cons (by omega) (ih h.2)

theorem fits_self (sh : List ℕ) : Ten.fits sh sh = true := by
  induction sh with
  | nil => rfl
  | cons d ds ih => simp [Ten.fits, ih]

theorem sliceShape_full (ds : List ℕ) : sliceShape (List.replicate ds.length 0) ds (List.replicate ds.length 1) = ds := by
  induction ds with
  | nil => rfl
  | cons d ds ih => simp [sliceShape, List.replicate_succ, ih]

theorem affine_full {ds o : List ℕ} (h : InB o ds) :
    affine (List.replicate ds.length 0) (List.replicate ds.length 1) o = o := by
  induction h with
  | nil => rfl
  | cons _ _ ih => simp [affine, List.replicate_succ, ih]

/-- one row -/
theorem slice_row {x : Ten α} {n k : ℕ} {ds : List ℕ} (hx : x.shape = n :: ds) (hk : k < n) :
    ∃ l, x.slice (k :: List.replicate ds.length 0) ((k + 1) :: ds) (List.replicate (ds.length + 1) 1) = some l ∧
      l.shape = 1 :: ds ∧ ∀ o, InB o ds → l.get (0 :: o) = x.get (k :: o) := by
  unfold Ten.slice
  rw [hx, if_pos ⟨by simp [Ten.fits, fits_self]; omega, by simp, by simp, by simp⟩]
  refine ⟨_, rfl, by simp [sliceShape, List.replicate_succ, sliceShape_full], fun o ho => ?_⟩
  simp [affine, List.replicate_succ, affine_full ho]

theorem drop_lead {x : Ten α} {ds : List ℕ} (hx : x.shape = 1 :: ds) :
    ∃ l, x.reshape ds = some l ∧ l.shape = ds ∧ ∀ o, InB o ds → l.get o = x.get (0 :: o) := by
  obtain ⟨l, h⟩ := reshape_isSome (t := x) (sh := ds) (by rw [hx]; simp [size])
  obtain ⟨h1, h2⟩ := reshape_spec h
  refine ⟨l, h, h1, fun o ho => h2 _ _ ho (by rw [hx]; exact .cons (by omega) ho) (by rw [hx]; simp [pos])⟩

theorem add_one_dim {x : Ten α} {ds : List ℕ} (hx : x.shape = ds) :
    ∃ l, x.reshape (1 :: ds) = some l ∧ l.shape = 1 :: ds ∧ ∀ o, InB o ds → l.get (0 :: o) = x.get o := by
  obtain ⟨l, h⟩ := reshape_isSome (t := x) (sh := 1 :: ds) (by rw [hx]; simp [size])
  obtain ⟨h1, h2⟩ := reshape_spec h
  refine ⟨l, h, h1, fun o ho => h2 _ _ (.cons (by omega) ho) (by rw [hx]; exact ho) (by rw [hx]; simp [pos])⟩

theorem squeeze0_one {x : Ten α} {ds : List ℕ} (hx : x.shape = 1 :: ds) :
    ∃ l, squeeze0 x = some l ∧ l.shape = ds ∧ ∀ o, InB o ds → l.get o = x.get (0 :: o) := by
  obtain ⟨l, h⟩ := drop_lead hx
  refine ⟨l, ?_, h.2⟩
  unfold squeeze0
  rw [hx]
  simpa using h.1

/-- rows are put together -/
theorem rows_spec {s : ℕ} (hs : 0 < s) {sh : List ℕ} (f : ℕ → Option (Ten α)) (F : ℕ → List ℕ → α)
    (hf : ∀ k, k < s → ∃ x, f k = some x ∧ x.shape = 1 :: sh ∧ ∀ o, InB o sh → x.get (0 :: o) = F k o) :
    ∃ rs r, (List.range s).mapM f = some rs ∧ gatherRows rs = some r ∧ r.shape = s :: sh ∧
      ∀ k o, k < s → InB o sh → r.get (k :: o) = F k o := by
  classical
  obtain ⟨x0, -⟩ := hf 0 hs
  let g : ℕ → Ten α := fun k => if h : k < s then (hf k h).choose else x0
  have hg : ∀ k, k < s → f k = some (g k) ∧ (g k).shape = 1 :: sh ∧ ∀ o, InB o sh → (g k).get (0 :: o) = F k o := by
    intro k hk
    simp only [g, dif_pos hk]
    exact (hf k hk).choose_spec
  refine ⟨(List.range s).map g, ?_⟩
  have hm := mapM_some (List.range s) f g fun k hk => (hg k (List.mem_range.1 hk)).1
  by_cases h1 : s = 1
  · subst h1
    refine ⟨g 0, hm, rfl, (hg 0 hs).2.1, fun k o hk ho => ?_⟩
    obtain rfl : k = 0 := by omega
    exact (hg 0 hs).2.2 o ho
  · obtain ⟨r, r1, r2, r3⟩ := concat0_spec (l := (List.range s).map g) (by simp; omega) (sh := sh) (by
      intro u hu
      obtain ⟨k, hk, rfl⟩ := List.mem_map.1 hu
      exact (hg k (List.mem_range.1 hk)).2.1)
    refine ⟨r, hm, ?_, by simpa using r2, fun k o hk ho => ?_⟩
    · have : ∃ a b l, (List.range s).map g = a :: b :: l := by
        obtain ⟨m, rfl⟩ : ∃ m, s = m + 2 := ⟨s - 2, by omega⟩
        simp only [List.range_succ_eq_map, List.map_cons]
        exact ⟨_, _, _, rfl⟩
      obtain ⟨a, b, l, e⟩ := this
      rw [e] at r1 ⊢
      exact r1
    · rw [r3 k (by simpa using hk) o]
      simp only [List.getElem_map, List.getElem_range]
      exact (hg k hk).2.2 o ho

variable {R : Type} [CommRing R]

theorem sum_single {n a : ℕ} (ha : a < n) (m g : ℕ → R) (hm : ∀ l, l < n → m l = if l = a then 1 else 0) :
    ((List.range n).map fun l => m l * g l).sum = g a := by
  induction n with
  | zero => omega
  | succ n ih =>
    rw [List.range_succ, List.map_append, List.sum_append]
    simp only [List.map_cons, List.map_nil, List.sum_cons, List.sum_nil, add_zero]
    rw [hm n (by omega)]
    by_cases h : a = n
    · subst h
      have : (List.map (fun l => m l * g l) (List.range a)) = List.map (fun _ => 0) (List.range a) := by
        apply List.map_congr_left
        intro l hl
        have := List.mem_range.1 hl
        rw [hm l (by omega), if_neg (by omega), zero_mul]
      rw [this]; simp
    · rw [ih (by omega) (fun l hl => hm l (by omega)), if_neg (by omega)]; simp

/-- the operand as a matrix -/
theorem collapse_spec {op : Ten R} {n : ℕ} {ds : List ℕ} (hx : op.shape = n :: ds) :
    ∃ c, collapse op = some c ∧ c.shape = [n, size ds] ∧ ∀ k o, k < n → InB o ds → c.get [k, pos o ds] = op.get (k :: o) := by
  obtain ⟨l, l1, l2, l3⟩ := reshape2 (x := op) (P := [n]) (C := ds) (by simpa using hx)
  have key : ∃ c, op.reshape [n, size ds] = some c ∧ c.shape = [n, size ds] ∧
      ∀ k o, k < n → InB o ds → c.get [k, pos o ds] = op.get (k :: o) := by
    rw [size_single] at l1 l2
    refine ⟨l, l1, l2, fun k o hk ho => ?_⟩
    have := l3 [k] o (InB_single hk) ho
    rwa [pos_single] at this
  match ds, hx, key with
  | [], hx, key => simpa [collapse, hx, size] using key
  | [d], hx, key =>
    refine ⟨op, by simp [collapse, hx], by simp [hx, size], fun k o hk ho => ?_⟩
    cases ho with
    | cons h h' => cases h'; rw [pos_single]
  | d :: d' :: ds, hx, key => simpa [collapse, hx] using key

/-- a product with a unit vector picks a row -/
theorem pick_row {op u c : Ten R} {n a : ℕ} {ds : List ℕ} (ha : a < n) (hc2 : c.shape = [n, size ds])
    (hc3 : ∀ k o, k < n → InB o ds → c.get [k, pos o ds] = op.get (k :: o)) (hu : u.shape = [1, n])
    (hm : ∀ l, l < n → u.get [0, l] = if l = a then 1 else 0) :
    ∃ z r, Con.matmul u c = some z ∧ z.reshape (1 :: ds) = some r ∧ r.shape = 1 :: ds ∧
      ∀ o, InB o ds → r.get (0 :: o) = op.get (a :: o) := by
  obtain ⟨z, z1, z2, z3⟩ := matmul_spec hu hc2
  obtain ⟨r, r1⟩ := reshape_isSome (t := z) (sh := 1 :: ds) (by rw [z2]; simp [size])
  obtain ⟨r2, r3⟩ := reshape_spec r1
  refine ⟨z, r, z1, r1, r2, fun o ho => ?_⟩
  rw [r3 (0 :: o) [0, pos o ds] (.cons (by omega) ho) (by rw [z2]; exact InB_pair (by omega) (pos_lt_size ho))
    (by rw [z2, pos_pair]; simp [pos]), z3, sum_single ha _ _ hm, hc3 a o ha ho]

theorem oramRead_spec {op : Ten R} {n k i : ℕ} {ds : List ℕ} (hx : op.shape = n :: ds) (hk : i + k < n) :
    ∃ r, oramRead op (fun j => if (i : ℤ) = j then 1 else 0) n k = some r ∧ r.shape = 1 :: ds ∧
      ∀ o, InB o ds → r.get (0 :: o) = op.get ((i + k) :: o) := by
  obtain ⟨c, c1, c2, c3⟩ := collapse_spec hx
  obtain ⟨z, r, h1, h2, h3, h4⟩ := pick_row (op := op) (u := ⟨[1, n], fun j =>
    (if (i : ℤ) = (((j.getD 1 0 + n - k) % n : ℕ) : ℤ) then (1 : R) else 0)⟩) (c := c) hk c2 c3 rfl (by
      intro l hl
      simp only [List.getD_cons_succ, List.getD_cons_zero]
      congr 1
      have : i = (l + n - k) % n ↔ l = i + k := by
        by_cases h : k ≤ l
        · rw [show l + n - k = (l - k) + n by omega, Nat.add_mod_right, Nat.mod_eq_of_lt (by omega)]; omega
        · rw [Nat.mod_eq_of_lt (by omega)]; omega
      exact propext (by rw [Int.ofNat_inj]; exact this))
  refine ⟨r, ?_, h3, h4⟩
  unfold oramRead
  rw [c1, hx]
  simp only [Option.bind_eq_bind, Option.bind_some, List.tail_cons, h1, h2]

theorem padMask {x : Ten R} {n s : ℕ} (hx : x.shape = [n]) :
    ∃ m, x.pad 0 [(s : ℤ)] [0] [0] = some m ∧ m.shape = [s + n] ∧
      ∀ j, m.get [j] = if s ≤ j ∧ j - s < n then x.get [j - s] else 0 := by
  have e : deducePadShape [n] [(s : ℤ)] [0] [0] = some [s + n] := by
    simp only [deducePadShape, Option.pure_def, Option.bind_eq_bind, Option.bind_some]
    rw [if_neg (by push_cast; omega)]
    congr 2
    push_cast; omega
  unfold Ten.pad
  rw [hx, e]
  refine ⟨_, rfl, rfl, fun j => ?_⟩
  simp only [Ten.padSrc, Option.map_some, Nat.zero_add, Nat.mod_one, Nat.div_one, true_and]
  by_cases h : s ≤ j ∧ j - s < n
  · rw [if_pos (show 0 ≤ (j : ℤ) - s ∧ ((j : ℤ) - s).toNat < n by omega), if_pos h]
    simp only
    congr 2; omega
  · rw [if_neg (show ¬ (0 ≤ (j : ℤ) - s ∧ ((j : ℤ) - s).toNat < n) by omega), if_neg h]

theorem maskRow_spec {op mask : Ten R} {n k i s : ℕ} {ds : List ℕ} (hx : op.shape = n :: ds) (hk : k < s) (hi : i + s ≤ n)
    (hs : mask.shape = [s + n]) (hm : ∀ j, mask.get [j] = if s ≤ j ∧ j - s < n then (if i = j - s then 1 else 0) else 0) :
    ∃ r, maskRow op mask n k = some r ∧ r.shape = 1 :: ds ∧ ∀ o, InB o ds → r.get (0 :: o) = op.get ((i + k) :: o) := by
  obtain ⟨c, c1, c2, c3⟩ := collapse_spec hx
  have hsl : ∃ m, mask.slice [size mask.shape - k - n] [size mask.shape - k] [1] = some m ∧ m.shape = [n] ∧
      ∀ l, m.get [l] = mask.get [s - k + l] := by
    unfold Ten.slice
    rw [hs, size_single, if_pos ⟨by simp [Ten.fits], rfl, rfl, by simp⟩]
    refine ⟨_, rfl, ?_, fun l => ?_⟩
    · simp only [sliceShape, Nat.sub_self, Nat.add_zero, Nat.div_one]
      congr 1; omega
    · simp only [affine, Nat.mul_one]
      congr 2; omega
  obtain ⟨m, m1, m2, m3⟩ := hsl
  obtain ⟨z, r, h1, h2, h3, h4⟩ := pick_row (op := op) (u := m.unsqueeze) (c := c) (a := i + k) (by omega) c2 c3
    (by simp [Ten.unsqueeze, m2]) (by
      intro l hl
      simp only [Ten.unsqueeze, List.tail_cons]
      rw [m3, hm]
      by_cases e : l = i + k
      · subst e
        rw [if_pos ⟨by omega, by omega⟩, if_pos (by omega), if_pos rfl]
      · rw [if_neg e]
        split
        · rw [if_neg (by omega)]
        · rfl)
  refine ⟨r, ?_, h3, h4⟩
  unfold maskRow
  rw [c1, hx, m1]
  simp only [Option.bind_eq_bind, Option.bind_some, List.tail_cons, h1, h2]

/-- starts at which the slice fits -/
inductive StartsOk : List ℕ → List ℕ → List ℕ → Prop
  | nil : StartsOk [] [] []
  | cons {d s b : ℕ} {ds ss bs : List ℕ} : b + s ≤ d → 0 < s → StartsOk ds ss bs → StartsOk (d :: ds) (s :: ss) (b :: bs)

theorem shift_cons (b k : ℕ) (bs o : List ℕ) : shift (b :: bs) (k :: o) = (b + k) :: shift bs o := rfl

theorem StartsOk.inB {sh sizes b o : List ℕ} (h : StartsOk sh sizes b) (ho : InB o sizes) : InB (shift b o) sh := by
  induction h generalizing o with
  | nil => cases ho; exact .nil
  | cons h1 _ _ ih =>
    cases ho with
    | cons h2 h3 => rw [shift_cons]; exact .cons (by omega) (ih h3)

theorem secretImpl_spec {ty : IntTy} {sizes : List ℕ} (hne : sizes ≠ []) : ∀ {op : Ten R} {b : List ℕ},
    StartsOk op.shape sizes b → (∀ d ∈ op.shape, ∀ k, k < d → ty.wrap k = k) →
    ∃ r, secretImpl ty sizes op (b.map fun (k : ℕ) => (k : ℤ)) = some r ∧ r.shape = sizes ∧
      ∀ o, InB o sizes → r.get o = op.get (shift b o) := by
  induction sizes with
  | nil => exact absurd rfl hne
  | cons s ss ih =>
    intro op b hb hw
    generalize hsh : op.shape = sh at hb hw
    cases hb with
    | cons h1 h2 h3 =>
      rename_i d b ds bs
      simp only [secretImpl, hsh, List.map_cons]
      by_cases hd : s = d
      · subst hd
        obtain rfl : b = 0 := by omega
        rw [if_pos rfl]
        by_cases hs : ss = []
        · subst hs
          cases h3
          rw [if_pos rfl]
          refine ⟨op, rfl, hsh, fun o ho => ?_⟩
          cases ho with
          | cons ho' ho'' => cases ho''; simp [shift]
        · rw [if_neg hs]
          obtain ⟨rs, r, r1, r2, r3, r4⟩ := rows_spec h2 (sh := ss) (fun k => (do
            let sl ← op.slice (k :: List.replicate ds.length 0) ((k + 1) :: ds) (List.replicate (ds.length + 1) 1)
            let r ← squeeze0 sl
            let x ← secretImpl ty ss r (bs.map fun (k : ℕ) => (k : ℤ))
            return x.unsqueeze)) (fun k o => op.get (k :: shift bs o)) (by
              intro k hk
              obtain ⟨l, l1, l2, l3⟩ := slice_row hsh hk
              obtain ⟨q, q1, q2, q3⟩ := squeeze0_one l2
              obtain ⟨x, x1, x2, x3⟩ := ih hs (op := q) (b := bs) (q2 ▸ h3) (q2 ▸ fun d hd => hw d (List.mem_cons_of_mem _ hd))
              refine ⟨x.unsqueeze, by simp [l1, q1, x1], by simp [Ten.unsqueeze, x2], fun o ho => ?_⟩
              simp only [Ten.unsqueeze, List.tail_cons]
              have hin := h3.inB ho
              rw [x3 o ho, q3 _ hin, l3 _ hin])
          simp only [Option.bind_eq_bind] at r1 ⊢
          rw [r1]
          refine ⟨r, r2, r3, fun o ho => ?_⟩
          cases ho with
          | cons ho' ho'' => rw [r4 _ _ ho' ho'', shift_cons, Nat.zero_add]
      · rw [if_neg hd]
        obtain ⟨m, m1, m2, m3⟩ := padMask (x := (oneHot ty d b : Ten R)) (n := d) (s := s) rfl
        rw [if_pos (show 1 ≤ s by omega), m1]
        have m3' : ∀ j, m.get [j] = if s ≤ j ∧ j - s < d then (if b = j - s then 1 else 0) else 0 := by
          intro j
          rw [m3]
          split
          · rename_i hj
            have e := hw d (by simp) (j - s) hj.2
            simp only [oneHot, iota, Ten.map, List.headD_cons, e, Int.ofNat_inj]
          · rfl
        obtain ⟨rs, r, r1, r2, r3, r4⟩ := rows_spec h2 (sh := ss) (fun k => (do
            let r ← maskRow op m d k
            if ss = [] then return r
            else do
              let r ← squeeze0 r
              let x ← secretImpl ty ss r (bs.map fun (k : ℕ) => (k : ℤ))
              return x.unsqueeze)) (fun k o => op.get ((b + k) :: shift bs o)) (by
              intro k hk
              obtain ⟨l, l1, l2, l3⟩ := maskRow_spec hsh hk h1 m2 m3'
              by_cases hs : ss = []
              · subst hs
                cases h3
                refine ⟨l, by simp [l1], l2, fun o ho => ?_⟩
                cases ho
                rw [l3 [] .nil]; rfl
              · obtain ⟨q, q1, q2, q3⟩ := squeeze0_one l2
                obtain ⟨x, x1, x2, x3⟩ := ih hs (op := q) (b := bs) (q2 ▸ h3) (q2 ▸ fun d hd => hw d (List.mem_cons_of_mem _ hd))
                refine ⟨x.unsqueeze, by simp [l1, q1, x1, hs], by simp [Ten.unsqueeze, x2], fun o ho => ?_⟩
                simp only [Ten.unsqueeze, List.tail_cons]
                have hin := h3.inB ho
                rw [x3 o ho, q3 _ hin, l3 _ hin])
        simp only [Option.bind_eq_bind, Option.bind_some] at r1 ⊢
        rw [r1]
        refine ⟨r, r2, r3, fun o ho => ?_⟩
        cases ho with
        | cons ho' ho'' => rw [r4 _ _ ho' ho'', shift_cons]

theorem oramImpl_spec {oram : Bool} {ty : IntTy} {sizes : List ℕ} (hne : sizes ≠ []) : ∀ {op : Ten R} {b : List ℕ},
    StartsOk op.shape sizes b → (oram = false → ∀ d ∈ op.shape, ∀ k, k < d → ty.wrap k = k) →
    ∃ r, oramImpl oram ty sizes op (b.map fun (k : ℕ) => (k : ℤ)) = some r ∧ r.shape = sizes ∧
      ∀ o, InB o sizes → r.get o = op.get (shift b o) := by
  induction sizes with
  | nil => exact absurd rfl hne
  | cons s ss ih =>
    intro op b hb hw
    generalize hsh : op.shape = sh at hb hw
    cases hb with
    | cons h1 h2 h3 =>
      rename_i d b ds bs
      simp only [oramImpl, hsh, List.map_cons]
      by_cases hd : s = d
      · subst hd
        obtain rfl : b = 0 := by omega
        rw [if_pos rfl]
        by_cases hs : ss = []
        · subst hs
          cases h3
          rw [if_pos rfl]
          refine ⟨op, rfl, hsh, fun o ho => ?_⟩
          cases ho with
          | cons ho' ho'' => cases ho''; simp [shift]
        · rw [if_neg hs]
          obtain ⟨rs, r, r1, r2, r3, r4⟩ := rows_spec h2 (sh := ss) (fun k => (do
            let sl ← op.slice (k :: List.replicate ds.length 0) ((k + 1) :: ds) (List.replicate (ds.length + 1) 1)
            let r ← sl.reshape ds
            let x ← oramImpl oram ty ss r (bs.map fun (k : ℕ) => (k : ℤ))
            x.reshape (1 :: x.shape))) (fun k o => op.get (k :: shift bs o)) (by
              intro k hk
              obtain ⟨l, l1, l2, l3⟩ := slice_row hsh hk
              obtain ⟨q, q1, q2, q3⟩ := drop_lead l2
              obtain ⟨x, x1, x2, x3⟩ := ih hs (op := q) (b := bs) (q2 ▸ h3)
                (q2 ▸ fun h d hd => hw h d (List.mem_cons_of_mem _ hd))
              obtain ⟨y, y1, y2, y3⟩ := add_one_dim x2
              refine ⟨y, by simp [l1, q1, x1, x2, y1], y2, fun o ho => ?_⟩
              have hin := h3.inB ho
              rw [y3 o ho, x3 o ho, q3 _ hin, l3 _ hin])
          simp only [Option.bind_eq_bind] at r1 ⊢
          rw [r1]
          refine ⟨r, r2, r3, fun o ho => ?_⟩
          cases ho with
          | cons ho' ho'' => rw [r4 _ _ ho' ho'', shift_cons, Nat.zero_add]
      · rw [if_neg hd]
        by_cases ho : oram = false
        · rw [if_pos ho]
          have := secretImpl_spec (ty := ty) (sizes := s :: ss) (by simp) (op := op) (b := b :: bs)
            (hsh ▸ .cons h1 h2 h3) (hsh ▸ hw ho)
          simpa using this
        · rw [if_neg ho]
          obtain ⟨rs, r, r1, r2, r3, r4⟩ := rows_spec h2 (sh := ss) (fun k => (do
            let r ← oramRead op (fun j => if (b : ℤ) = j then 1 else 0) d k
            if ss = [] then return r
            else do
              let r ← r.reshape ds
              let x ← oramImpl oram ty ss r (bs.map fun (k : ℕ) => (k : ℤ))
              x.reshape (1 :: ss))) (fun k o => op.get ((b + k) :: shift bs o)) (by
              intro k hk
              obtain ⟨l, l1, l2, l3⟩ := oramRead_spec (i := b) (k := k) hsh (by omega)
              by_cases hs : ss = []
              · subst hs
                cases h3
                refine ⟨l, by simp only [l1]; simp, l2, fun o ho => ?_⟩
                cases ho
                rw [l3 [] .nil]; rfl
              · obtain ⟨q, q1, q2, q3⟩ := drop_lead l2
                obtain ⟨x, x1, x2, x3⟩ := ih hs (op := q) (b := bs) (q2 ▸ h3)
                  (q2 ▸ fun h d hd => hw h d (List.mem_cons_of_mem _ hd))
                obtain ⟨y, y1, y2, y3⟩ := add_one_dim x2
                refine ⟨y, by simp only [l1]; simp [q1, x1, hs, y1], y2, fun o ho => ?_⟩
                have hin := h3.inB ho
                rw [y3 o ho, x3 o ho, q3 _ hin, l3 _ hin])
          simp only [Option.bind_eq_bind] at r1 ⊢
          rw [r1]
          refine ⟨r, r2, r3, fun o ho => ?_⟩
          cases ho with
          | cons ho' ho'' => rw [r4 _ _ ho' ho'', shift_cons]

end Spu.Lemmas.T

import Verif.Lemmas.CheetahConvSteps

set_option autoImplicit false

/-!
# Reading the results of the convolution
-/

namespace Spu.Props.Cconv

open Spu.Spec.Nega Spu.Spec.Conv Spu.Model.Cmul Spu.Model.Cdot Spu.Model.Cconv

theorem mapM_map {α β : Type} {f : α → Option β} {g : α → β} (l : List α) (h : ∀ x ∈ l, f x = some (g x)) :
    l.mapM f = some (l.map g) := by
  induction l with
  | nil => rfl
  | cons x l ih =>
    rw [List.mapM_cons, h x List.mem_cons_self, ih fun y hy => h y (List.mem_cons_of_mem _ hy)]
    rfl

section
variable {N : ℕ} {m : Meta} {s : Sh3}

/-- offsets and extents of the results of a slice -/
def oh (m : Meta) (s : Sh3) (a : ℕ) : ℕ × ℕ :=
  outExt m.sh (s.h - (m.ker.h - 1)) m.ker.h (sliceExt (s.h - (m.ker.h - 1)) s.h m.inp.h a) a

def ow (m : Meta) (s : Sh3) (b : ℕ) : ℕ × ℕ :=
  outExt m.sw (s.w - (m.ker.w - 1)) m.ker.w (sliceExt (s.w - (m.ker.w - 1)) s.w m.inp.w b) b

/-- results before a slice -/
def cuth (m : Meta) (s : Sh3) (a : ℕ) : ℕ := cut m.inp.h m.ker.h s.h m.sh a

def cutw (m : Meta) (s : Sh3) (b : ℕ) : ℕ := cut m.inp.w m.ker.w s.w m.sw b

theorem resultCoeffs_eq (h : Ok N m s) {a b : ℕ} (ha : a < (hp m s).slices.h) (hb : b < (hp m s).slices.w) :
    resultCoeffs (hp m s) a b =
      some ((cells (oh m s a).2 (ow m s b).2).map fun e => (resCoeff m s (e.1 + cuth m s a) (e.2 + cutw m s b) : ℤ),
        (oh m s a).2, (ow m s b).2) := by
  have hc : 0 < (hp m s).slices.c := cdiv_pos h.c0 (by have := h.c0; have := h.cn; omega)
  have sc : sliceExt s.c s.c m.inp.c 0 = s.c := by unfold sliceExt; have := h.cn; omega
  have fh := (slice_facts h.dh ha).1
  have fw := (slice_facts h.dw hb).1
  have k1 := h.dh.k0
  have k2 := h.dw.k0
  have k3 := h.dh.ks
  have k4 := h.dw.ks
  have k5 := h.dh.d0
  have k6 := h.dw.d0
  unfold resultCoeffs
  rw [sliceShape_eq ha hb hc, sc]
  simp only [Option.bind_eq_bind, Option.bind_some]
  rw [if_neg (show ¬ ((hp m s).m.sh = 0 ∨ (hp m s).m.sw = 0) by simp only [hp]; omega)]
  have := mapM_map (f := fun e : ℕ × ℕ => (inputIndex s (e.1 * m.sh + (oh m s a).1) (e.2 * m.sw + (ow m s b).1) 0).map fun t =>
    kernelBegin s (fsh m s) + t) (g := fun e => (resCoeff m s (e.1 + cuth m s a) (e.2 + cutw m s b) : ℤ))
    (cells (oh m s a).2 (ow m s b).2) (by
      rintro ⟨i, j⟩ he
      obtain ⟨hi, hj⟩ := mem_cells.1 he
      dsimp only
      have hi' : cut m.inp.h m.ker.h s.h m.sh a + i < cut m.inp.h m.ker.h s.h m.sh (a + 1) := by
        have hi : i < (oh m s a).2 := hi
        unfold oh at hi
        omega
      have hj' : cut m.inp.w m.ker.w s.w m.sw b + j < cut m.inp.w m.ker.w s.w m.sw (b + 1) := by
        have hj : j < (ow m s b).2 := hj
        unfold ow at hj
        omega
      have r1 := (in_slice h.dh ha (Nat.le_add_right _ i) hi').2
      have r2 := (in_slice h.dw hb (Nat.le_add_right _ j) hj').2
      rw [Nat.add_sub_cancel_left] at r1 r2
      unfold oh ow
      rw [r1, r2]
      have l1 := Nat.mod_lt ((cut m.inp.h m.ker.h s.h m.sh a + i) * m.sh) (show 0 < s.h - (m.ker.h - 1) by omega)
      have l2 := Nat.mod_lt ((cut m.inp.w m.ker.w s.w m.sw b + j) * m.sw) (show 0 < s.w - (m.ker.w - 1) by omega)
      rw [inputIndex_eq (by omega) (by omega) h.c0, kernelBegin_eq (f := fsh m s) k1 k2 h.c0, Option.map_some]
      unfold resCoeff cuth cutw
      rw [Nat.add_comm i, Nat.add_comm j]
      push_cast
      rfl)
  refine Eq.trans (congrArg (fun o => Option.bind o fun l => some (l, (oh m s a).2, (ow m s b).2)) this) ?_
  rfl

/-! ## Filling rectangles -/

/-- `out`, but `val` in a rectangle of channel `o` -/
def fill {β : Type} (val out : Out β) (o r0 r1 c0 c1 : ℕ) : Out β :=
  fun p q m => if m = o ∧ r0 ≤ p ∧ p < r1 ∧ c0 ≤ q ∧ q < c1 then val p q m else out p q m

theorem fold_fill {β : Type} (val : Out β) (l : List (ℕ × ℕ)) (hoff woff o : ℕ) (out : Out β) (p q m' : ℕ) :
    (m' = o ∧ (∃ e ∈ l, p = e.1 + hoff ∧ q = e.2 + woff) →
      (l.foldl (fun out e => writeOut out (e.1 + hoff) (e.2 + woff) o (val (e.1 + hoff) (e.2 + woff) o)) out) p q m' = val p q m') ∧
    (¬ (m' = o ∧ ∃ e ∈ l, p = e.1 + hoff ∧ q = e.2 + woff) →
      (l.foldl (fun out e => writeOut out (e.1 + hoff) (e.2 + woff) o (val (e.1 + hoff) (e.2 + woff) o)) out) p q m' = out p q m') := by
  induction l generalizing out with
  | nil => simp
  | cons x l ih =>
    rw [List.foldl_cons]
    obtain ⟨i1, i2⟩ := ih (writeOut out (x.1 + hoff) (x.2 + woff) o (val (x.1 + hoff) (x.2 + woff) o))
    constructor
    · rintro ⟨rfl, e, he, rfl, rfl⟩
      by_cases hin : ∃ e' ∈ l, e.1 + hoff = e'.1 + hoff ∧ e.2 + woff = e'.2 + woff
      · exact i1 ⟨rfl, hin⟩
      · rw [i2 fun h => hin h.2]
        rcases List.mem_cons.1 he with rfl | he
        · unfold writeOut
          rw [if_pos ⟨rfl, rfl, rfl⟩]
        · exact absurd ⟨e, he, rfl, rfl⟩ hin
    · intro hn
      rw [i2 fun h => hn ⟨h.1, h.2.imp fun e he => ⟨List.mem_cons_of_mem _ he.1, he.2⟩⟩]
      unfold writeOut
      rw [if_neg]
      rintro ⟨e1, e2, e3⟩
      exact hn ⟨e3, x, List.mem_cons_self, e1, e2⟩

theorem fold_rect {β : Type} (val out : Out β) (a b hoff woff o : ℕ) :
    (cells a b).foldl (fun out e => writeOut out (e.1 + hoff) (e.2 + woff) o (val (e.1 + hoff) (e.2 + woff) o)) out =
      fill val out o hoff (hoff + a) woff (woff + b) := by
  funext p q m'
  obtain ⟨i1, i2⟩ := fold_fill val (cells a b) hoff woff o out p q m'
  have iff : (m' = o ∧ ∃ e ∈ cells a b, p = e.1 + hoff ∧ q = e.2 + woff) ↔
      m' = o ∧ hoff ≤ p ∧ p < hoff + a ∧ woff ≤ q ∧ q < woff + b := by
    refine and_congr_right fun _ => ⟨?_, fun ⟨h1, h2, h3, h4⟩ => ⟨(p - hoff, q - woff), mem_cells.2 ⟨by omega, by omega⟩, ?_, ?_⟩⟩
    · rintro ⟨⟨i, j⟩, he, rfl, rfl⟩
      obtain ⟨hi, hj⟩ := mem_cells.1 he
      dsimp only
      omega
    · dsimp only; omega
    · dsimp only; omega
  unfold fill
  split_ifs with hc
  · exact i1 (iff.2 hc)
  · exact i2 fun h => hc (iff.1 h)

theorem fill_cols {β : Type} (val out : Out β) (o r0 r1 c c' : ℕ) (h : c ≤ c') :
    fill val (fill val out o r0 r1 0 c) o r0 r1 c c' = fill val out o r0 r1 0 c' := by
  funext p q m'
  unfold fill
  split_ifs <;> first | rfl | (exfalso; omega)

theorem fill_rows {β : Type} (val out : Out β) (o r r' c : ℕ) (h : r ≤ r') :
    fill val (fill val out o 0 r 0 c) o r r' 0 c = fill val out o 0 r' 0 c := by
  funext p q m'
  unfold fill
  split_ifs <;> first | rfl | (exfalso; omega)

theorem fill_none {β : Type} (val out : Out β) (o r0 r1 c0 c1 : ℕ) (h : r1 ≤ r0 ∨ c1 ≤ c0) : fill val out o r0 r1 c0 c1 = out := by
  funext p q m'
  unfold fill
  split_ifs with hc
  · exfalso; omega
  · rfl

/-! ## The loops -/

theorem resCoeff_lt (h : Ok N m s) (p q : ℕ) : resCoeff m s p q < N := by
  have k1 := h.dh.k0
  have k2 := h.dw.k0
  have k3 := h.dh.ks
  have k4 := h.dw.ks
  have l1 := Nat.mod_lt (p * m.sh) (show 0 < s.h - (m.ker.h - 1) by omega)
  have l2 := Nat.mod_lt (q * m.sw) (show 0 < s.w - (m.ker.w - 1) by omega)
  have k5 := h.c0
  unfold resCoeff top
  rw [← ip_add]
  refine lt_of_lt_of_le (ip_lt (H := s.h) (W := s.w) (C := s.c) ?_ ?_ ?_) h.fits
  · show m.ker.h - 1 + _ < _; omega
  · show m.ker.w - 1 + _ < _; omega
  · show s.c - 1 + _ < _; omega

/-- the results -/
def resVal {β : Type} (m : Meta) (s : Sh3) (polys : ℕ → ℕ → β) : Out β := fun p q o => polys (resPoly m s p q o) (resCoeff m s p q)

/-- extents of the result -/
def th (m : Meta) : ℕ := (m.inp.h - m.ker.h + m.sh) / m.sh

def tw (m : Meta) : ℕ := (m.inp.w - m.ker.w + m.sw) / m.sw

theorem cuth_succ (h : Ok N m s) {a : ℕ} (ha : a < (hp m s).slices.h) : cuth m s a + (oh m s a).2 = cuth m s (a + 1) :=
  (slice_facts h.dh ha).1

theorem cutw_succ (h : Ok N m s) {b : ℕ} (hb : b < (hp m s).slices.w) : cutw m s b + (ow m s b).2 = cutw m s (b + 1) :=
  (slice_facts h.dw hb).1

theorem cuth_le (h : Ok N m s) {a : ℕ} (ha : a ≤ (hp m s).slices.h) : cuth m s a ≤ th m := by
  have := cut_mono h.dh ha
  rw [show cut m.inp.h m.ker.h s.h m.sh (hp m s).slices.h = th m from cut_total h.dh] at this
  exact this

theorem cutw_le (h : Ok N m s) {b : ℕ} (hb : b ≤ (hp m s).slices.w) : cutw m s b ≤ tw m := by
  have := cut_mono h.dw hb
  rw [show cut m.inp.w m.ker.w s.w m.sw (hp m s).slices.w = tw m from cut_total h.dw] at this
  exact this

theorem parseSlice_eq {β : Type} (h : Ok N m s) (polys : ℕ → ℕ → β) {a b o : ℕ} (ha : a < (hp m s).slices.h)
    (hb : b < (hp m s).slices.w) (out : Out β) :
    parseSlice N polys ((cells (oh m s a).2 (ow m s b).2).map fun e => (resCoeff m s (e.1 + cuth m s a) (e.2 + cutw m s b) : ℤ),
      (oh m s a).2, (ow m s b).2) (th m) (tw m) o
      (o * ((hp m s).slices.h * (hp m s).slices.w) + (a * (hp m s).slices.w + b)) (cuth m s a) (cutw m s b) out =
    some (fill (resVal m s polys) out o (cuth m s a) (cuth m s (a + 1)) (cutw m s b) (cutw m s (b + 1))) := by
  rw [← cuth_succ h ha, ← cutw_succ h hb, ← fold_rect]
  unfold parseSlice
  dsimp only
  have hz : ∀ (l : List (ℕ × ℕ)) (f : ℕ × ℕ → ℤ), l.zip (l.map f) = l.map fun e => (e, f e) := fun l f => by
    induction l with
    | nil => rfl
    | cons x l ih => simp [ih]
  rw [hz, List.foldlM_map]
  have u1 := cuth_le h (show a + 1 ≤ (hp m s).slices.h from ha)
  have u2 := cutw_le h (show b + 1 ≤ (hp m s).slices.w from hb)
  refine foldlM_pure_of _ _ _ ?_ _
  rintro ⟨i, j⟩ he r
  obtain ⟨hi, hj⟩ := mem_cells.1 he
  dsimp only
  have v1 := cuth_succ h ha
  have v2 := cutw_succ h hb
  have w1 := resCoeff_lt h (i + cuth m s a) (j + cutw m s b)
  rw [if_pos ⟨by omega, by omega, by omega, by omega⟩, Int.toNat_natCast]
  congr 2
  unfold resVal resPoly
  rw [(in_slice h.dh ha (p := i + cuth m s a) (show cuth m s a ≤ _ by omega) (show _ < cuth m s (a + 1) by omega)).1,
    (in_slice h.dw hb (p := j + cutw m s b) (show cutw m s b ≤ _ by omega) (show _ < cutw m s (b + 1) by omega)).1]

theorem parseResult_eq {β : Type} (h : Ok N m s) (z : β) (polys : ℕ → ℕ → β) :
    parseResult N (hp m s) z polys =
      some fun p q o => if o < m.kernels ∧ p < th m ∧ q < tw m then resVal m s polys p q o else z := by
  have inner : ∀ a, a < (hp m s).slices.h → ∀ o (out : Out β) n, n ≤ (hp m s).slices.w →
      (List.range n).foldlM (fun (t : ℕ × ℕ × Out β) w => do
        let r ← resultCoeffs (hp m s) a w
        let out ← parseSlice N polys r (th m) (tw m) o
          (o * ((hp m s).slices.h * (hp m s).slices.w) + (a * (hp m s).slices.w + w)) (cuth m s a) t.1 t.2.2
        return (t.1 + r.2.2, r.2.1, out)) (0, 0, out) =
      some (cutw m s n, (if n = 0 then 0 else (oh m s a).2), fill (resVal m s polys) out o (cuth m s a) (cuth m s (a + 1)) 0 (cutw m s n)) := by
    intro a ha o out n
    induction n with
    | zero =>
      intro _
      rw [fill_none _ _ _ _ _ _ _ (.inr (by rw [show cutw m s 0 = 0 from cut_zero h.dw])), show cutw m s 0 = 0 from cut_zero h.dw]
      rfl
    | succ n ih =>
      intro hn
      rw [List.range_succ, List.foldlM_append, ih (by omega)]
      simp only [Option.bind_eq_bind, Option.bind_some, List.foldlM_cons, List.foldlM_nil]
      rw [resultCoeffs_eq h ha (show n < (hp m s).slices.w by omega)]
      simp only [Option.bind_some]
      rw [parseSlice_eq h polys ha (show n < (hp m s).slices.w by omega), fill_cols _ _ _ _ _ _ _ (by
        rw [← cutw_succ h (show n < (hp m s).slices.w by omega)]; omega)]
      simp only [Option.bind_some, Option.pure_def]
      rw [cutw_succ h (show n < (hp m s).slices.w by omega), if_neg (by omega)]
  have sw0 : (hp m s).slices.w ≠ 0 := fun e => by have := ppc_pos h; rw [e] at this; omega
  have outer : ∀ o (out : Out β) n, n ≤ (hp m s).slices.h →
      (List.range n).foldlM (fun (t : ℕ × Out β) a => do
        let r ← (List.range (hp m s).slices.w).foldlM (fun (u : ℕ × ℕ × Out β) w => do
          let r ← resultCoeffs (hp m s) a w
          let out ← parseSlice N polys r (th m) (tw m) o
            (o * ((hp m s).slices.h * (hp m s).slices.w) + (a * (hp m s).slices.w + w)) t.1 u.1 u.2.2
          return (u.1 + r.2.2, r.2.1, out)) (0, 0, t.2)
        return (t.1 + r.2.1, r.2.2)) (0, out) =
      some (cuth m s n, fill (resVal m s polys) out o 0 (cuth m s n) 0 (tw m)) := by
    intro o out n
    induction n with
    | zero =>
      intro _
      rw [fill_none _ _ _ _ _ _ _ (.inl (by rw [show cuth m s 0 = 0 from cut_zero h.dh])), show cuth m s 0 = 0 from cut_zero h.dh]
      rfl
    | succ n ih =>
      intro hn
      rw [List.range_succ, List.foldlM_append, ih (by omega)]
      simp only [Option.bind_eq_bind, Option.bind_some, List.foldlM_cons, List.foldlM_nil]
      have := inner n (by omega) o (fill (resVal m s polys) out o 0 (cuth m s n) 0 (tw m)) _ (le_refl _)
      simp only [Option.bind_eq_bind] at this
      rw [this, if_neg sw0, show cutw m s (hp m s).slices.w = tw m from cut_total h.dw]
      simp only [Option.bind_some, Option.pure_def]
      rw [fill_rows _ _ _ _ _ _ (by rw [← cuth_succ h (show n < (hp m s).slices.h by omega)]; omega),
        cuth_succ h (show n < (hp m s).slices.h by omega)]
  have all : ∀ n, n ≤ m.kernels → (List.range n).foldlM (fun (out : Out β) o => do
      let r ← (List.range (hp m s).slices.h).foldlM (fun (t : ℕ × Out β) a => do
        let r ← (List.range (hp m s).slices.w).foldlM (fun (u : ℕ × ℕ × Out β) w => do
          let r ← resultCoeffs (hp m s) a w
          let out ← parseSlice N polys r (th m) (tw m) o
            (o * ((hp m s).slices.h * (hp m s).slices.w) + (a * (hp m s).slices.w + w)) t.1 u.1 u.2.2
          return (u.1 + r.2.2, r.2.1, out)) (0, 0, t.2)
        return (t.1 + r.2.1, r.2.2)) (0, out)
      return r.2) (fun _ _ _ => z) =
      some fun p q o => if o < n ∧ p < th m ∧ q < tw m then resVal m s polys p q o else z := by
    intro n
    induction n with
    | zero => intro _; simp
    | succ n ih =>
      intro hn
      rw [List.range_succ, List.foldlM_append, ih (by omega)]
      simp only [Option.bind_eq_bind, Option.bind_some, List.foldlM_cons, List.foldlM_nil]
      have := outer n (fun p q o => if o < n ∧ p < th m ∧ q < tw m then resVal m s polys p q o else z) _ (le_refl _)
      simp only [Option.bind_eq_bind] at this
      rw [this, show cuth m s (hp m s).slices.h = th m from cut_total h.dh]
      simp only [Option.bind_some, Option.pure_def, Option.some.injEq]
      funext p q o
      unfold fill
      dsimp only
      split_ifs <;> first | rfl | (exfalso; omega)
  exact all m.kernels (le_refl _)

theorem extract_kept {β : Type} (h : Ok N m s) (junk polys : ℕ → ℕ → β) {p q : ℕ} (o : ℕ) (hp1 : p < th m) (hq1 : q < tw m) :
    extractLWEs (hp m s) junk polys (resPoly m s p q o) (resCoeff m s p q) = polys (resPoly m s p q o) (resCoeff m s p q) := by
  have h1 := (lt_total h.dh p).1 hp1
  have h2 := (lt_total h.dw q).1 hq1
  have a0 : _ < (hp m s).slices.h := (mul_mod_slice h.dh h1 h.dh.k0).1
  have b0 : _ < (hp m s).slices.w := (mul_mod_slice h.dw h2 h.dw.k0).1
  have lt1 := Nat.mul_le_mul_right (hp m s).slices.w (show p * m.sh / (s.h - (m.ker.h - 1)) + 1 ≤ (hp m s).slices.h from a0)
  rw [Nat.add_mul, one_mul] at lt1
  have e : resPoly m s p q o % ((hp m s).slices.h * (hp m s).slices.w) =
      p * m.sh / (s.h - (m.ker.h - 1)) * (hp m s).slices.w + q * m.sw / (s.w - (m.ker.w - 1)) :=
    (jobDM (by omega)).2
  unfold extractLWEs
  dsimp only
  rw [e, (jobDM b0).1, (jobDM b0).2, resultCoeffs_eq h a0 b0]
  dsimp only
  rw [if_pos]
  rw [List.mem_map]
  have k1 := h.dh.k0
  have k2 := h.dw.k0
  have k3 := h.dh.ks
  have k4 := h.dw.ks
  have w1 : 0 < s.h - (m.ker.h - 1) := by omega
  have w2 : 0 < s.w - (m.ker.w - 1) := by omega
  have c1 : cuth m s (p * m.sh / (s.h - (m.ker.h - 1))) ≤ p ∧ p < cuth m s (p * m.sh / (s.h - (m.ker.h - 1)) + 1) := by
    have d1 := Nat.div_add_mod' (p * m.sh) (s.h - (m.ker.h - 1))
    have d2 := Nat.mod_lt (p * m.sh) w1
    unfold cuth cut
    constructor
    · by_contra hn
      have := (lt_cdiv h.dh.d0).1 (Nat.lt_of_not_le hn)
      omega
    · rw [lt_cdiv h.dh.d0, Nat.add_mul, one_mul]
      omega
  have c2 : cutw m s (q * m.sw / (s.w - (m.ker.w - 1))) ≤ q ∧ q < cutw m s (q * m.sw / (s.w - (m.ker.w - 1)) + 1) := by
    have d1 := Nat.div_add_mod' (q * m.sw) (s.w - (m.ker.w - 1))
    have d2 := Nat.mod_lt (q * m.sw) w2
    unfold cutw cut
    constructor
    · by_contra hn
      have := (lt_cdiv h.dw.d0).1 (Nat.lt_of_not_le hn)
      omega
    · rw [lt_cdiv h.dw.d0, Nat.add_mul, one_mul]
      omega
  have s1 := cuth_succ h a0
  have s2 := cutw_succ h b0
  refine ⟨(p - cuth m s (p * m.sh / (s.h - (m.ker.h - 1))), q - cutw m s (q * m.sw / (s.w - (m.ker.w - 1)))),
    mem_cells.2 ⟨by omega, by omega⟩, ?_⟩
  dsimp only
  rw [Nat.sub_add_cancel c1.1, Nat.sub_add_cancel c2.1]

end

end Spu.Props.Cconv

import Verif.Lemmas.CheetahConvParse
import Verif.Props.CheetahDot

set_option autoImplicit false

/-!
C85: Cheetah's convolution.
-/

namespace Spu.Props.Cconv

open Spu.Model.Ms Spu.Model.Cmul Spu.Spec.Ms Spu.Spec.Cmul Spu.Spec.Nega Spu.Spec.Conv Spu.Model.Cdot Spu.Model.Cconv

/-! ## Coefficients -/

theorem decode_near {h : Helper} (H : CtxOk h.c) (hh : init h.c = some h) {f : Res h.c} {W v : ℤ} {B : ℚ} (hW : ∀ l, f l = W)
    (hB : |(2 : ℚ) ^ h.c.k * W / h.c.Q - v| ≤ B) (hm : B + h.c.L / h.c.g ≤ 1 / 2) (hm' : B < 1 / 2) :
    decode h f < 2 ^ h.c.k ∧ ((decode h f : ℕ) : ZMod (2 ^ h.c.k)) = v := by
  have hQ : (0 : ℚ) < h.c.Q := by exact_mod_cast Q_pos H
  obtain ⟨X, -, hX⟩ := cmCrt H fun l => if hl : l < h.c.L then (f ⟨l, hl⟩).val else 0
  obtain ⟨δ, d0, d1, e⟩ := c58_down H hh hX
  obtain ⟨z, hz⟩ : (h.c.Q : ℤ) ∣ X - W := cmQ_dvd H fun l hl => by
    haveI : NeZero (h.c.q l) := ⟨by have := H.one l hl; omega⟩
    have h1 := hX l hl
    rw [dif_pos hl] at h1
    have h2 : (X : ZMod (h.c.q l)) = W := by
      rw [← hW ⟨l, hl⟩, ← ZMod.natCast_zmod_val (f ⟨l, hl⟩), ZMod.natCast_eq_natCast_iff]
      exact h1.symm
    rw [← ZMod.intCast_zmod_eq_zero_iff_dvd]
    push_cast
    rw [h2, sub_self]
  have hX' : (X : ℚ) = W + h.c.Q * z := by
    have : (X : ℤ) = W + h.c.Q * z := by linarith
    exact_mod_cast this
  have hn : near ((2 : ℚ) ^ h.c.k * X / h.c.Q - δ) = v + 2 ^ h.c.k * z := by
    have e1 : (2 : ℚ) ^ h.c.k * X / h.c.Q = 2 ^ h.c.k * W / h.c.Q + 2 ^ h.c.k * z := by rw [hX']; field_simp
    rw [e1, near, Int.floor_eq_iff]
    have := abs_le.1 hB
    push_cast
    generalize (2 : ℚ) ^ h.c.k * W / h.c.Q = y at *
    constructor <;> linarith
  unfold decode
  rw [e, Option.getD_some, hn]
  have hp : (0 : ℤ) < 2 ^ h.c.k := by positivity
  have l1 := Int.emod_nonneg (v + 2 ^ h.c.k * z) hp.ne'
  have l2 := Int.emod_lt_of_pos (v + 2 ^ h.c.k * z) hp
  constructor
  · zify
    rw [Int.toNat_of_nonneg l1]
    exact l2
  · have : (((v + 2 ^ h.c.k * z) % 2 ^ h.c.k).toNat : ZMod (2 ^ h.c.k)) = (((v + 2 ^ h.c.k * z) % 2 ^ h.c.k : ℤ) : ZMod (2 ^ h.c.k)) := by
      rw [← Int.cast_natCast, Int.toNat_of_nonneg l1]
    rw [this, Int.add_mul_emod_self_left]
    have hc : ((2 : ℤ) ^ h.c.k) = ((2 ^ h.c.k : ℕ) : ℤ) := by push_cast; rfl
    rw [hc, ZMod.intCast_mod]

theorem sum_scale_on {ι : Type} (T : Finset ι) {t Q Y : ℚ} (ht : 0 < t) (hQ : 0 < Q) {U x C : ι → ℤ}
    (hU : ∀ k, |(U k : ℚ) - Q * x k / t| ≤ 1 / 2) (hC : ∀ k, |(C k : ℚ)| ≤ Y) :
    |t * ((∑ k ∈ T, U k * C k : ℤ) : ℚ) / Q - ((∑ k ∈ T, x k * C k : ℤ) : ℚ)| ≤ T.card * (t * Y / (2 * Q)) := by
  have e : t * ((∑ k ∈ T, U k * C k : ℤ) : ℚ) / Q - ((∑ k ∈ T, x k * C k : ℤ) : ℚ) =
      ∑ k ∈ T, ((U k : ℚ) - Q * x k / t) * C k * (t / Q) := by
    push_cast
    rw [Finset.mul_sum, Finset.sum_div, ← Finset.sum_sub_distrib]
    refine Finset.sum_congr rfl fun k _ => ?_
    field_simp
  rw [e]
  have hq : 0 ≤ t / Q := by positivity
  calc _ ≤ ∑ k ∈ T, |((U k : ℚ) - Q * x k / t) * C k * (t / Q)| := Finset.abs_sum_le_sum_abs _ _
    _ ≤ ∑ _k ∈ T, t * Y / (2 * Q) := by
        refine Finset.sum_le_sum fun k _ => ?_
        rw [abs_mul, abs_mul, abs_of_nonneg hq]
        calc _ ≤ 1 / 2 * Y * (t / Q) := by
              apply mul_le_mul_of_nonneg_right _ hq
              exact mul_le_mul (hU k) (hC k) (abs_nonneg _) (by norm_num)
          _ = _ := by field_simp
    _ = _ := by rw [Finset.sum_const, nsmul_eq_mul]

theorem conv_sum {A : Type} [CommRing A] (sh sw kh kw C : ℕ) (x k : ℕ → ℕ → ℕ → A) (p q : ℕ) :
    conv sh sw kh kw C x k p q = ∑ t ∈ Finset.range C ×ˢ (Finset.range kh ×ˢ Finset.range kw),
      x (p * sh + t.2.1) (q * sw + t.2.2) t.1 * k t.2.1 t.2.2 t.1 := by
  unfold conv
  rw [Finset.sum_product]
  refine Finset.sum_congr rfl fun c _ => ?_
  rw [Finset.sum_product]

theorem up_zero {h : Helper} (H : CtxOk h.c) (hh : init h.c = some h) (hf : ∀ l, l < h.c.L → UpFits h.c l) : up h 0 = 0 := by
  funext l
  rw [up_int H hh hf]
  have : ((0 : ZMod (2 ^ h.c.k)).val : ℚ) = 0 := by simp
  rw [this, mul_zero, zero_div]
  simp [near]
  norm_num

theorem centre_zero {h : Helper} (H : CtxOk h.c) (hh : init h.c = some h) : centre h 0 = 0 := by
  funext l
  rw [centre_int H hh]
  simp [centred]

/-- the error before rounding -/
def convErr (h : Helper) (m : Meta) : ℚ := (m.inp.c * (m.ker.h * m.ker.w) : ℕ) * (2 ^ h.c.k * 2 ^ (h.c.k - 1) / (2 * h.c.Q))

theorem convErr_nonneg {h : Helper} (m : Meta) : 0 ≤ convErr h m := by unfold convErr; positivity

/-! ## Claims -/

/-- Over any ring, and for all blocks that are not smaller than the kernel and fit into a polynomial: all steps succeed, what is read
from the products is the convolution, and what `ExtractLWEsInplace` drops is not read. -/
theorem c85_blocks {V A : Type} [Zero V] [CommRing A] {N : ℕ} {m : Meta} {s : Sh3} (h : Ok N m s) {el er : V → A} (l0 : el 0 = 0)
    (r0 : er 0 = 0) (z : A) (junk : ℕ → ℕ → A) (x k : ℕ → V) : ∃ P K H out, encodeInput N m s x = some P ∧
      encodeKernels N m s k = some K ∧ mkHelper m s = some H ∧
      parseResult N H z (extractLWEs H junk (Model.Cconv.compute N H (fun p i => el (P p i)) fun p i => er (K p i))) = some out ∧
      ∀ p q o, p * m.sh + m.ker.h ≤ m.inp.h → q * m.sw + m.ker.w ≤ m.inp.w → o < m.kernels → out p q o =
        conv m.sh m.sw m.ker.h m.ker.w m.inp.c (fun h w c => el (inAt m x h w c)) (fun h w c => er (kerAt m k o h w c)) p q := by
  obtain ⟨P, eP, -⟩ := encodeInput_spec h x
  obtain ⟨K, eK, -⟩ := encodeKernels_spec h k
  refine ⟨P, K, _, _, eP, eK, mkHelper_eq h, parseResult_eq h z _, fun p q o h1 h2 ho => ?_⟩
  have p1 := (lt_total h.dh p).2 h1
  have p2 := (lt_total h.dw q).2 h2
  rw [if_pos ⟨ho, p1, p2⟩, resVal, extract_kept h junk _ o p1 p2]
  exact compute_conv h l0 r0 eP eK h1 h2 ho

/-- The number of rows of the result, as it is computed, is the number of positions of the kernel. -/
theorem c85_extent {N : ℕ} {m : Meta} {s : Sh3} (h : Ok N m s) (p : ℕ) :
    (p < (m.inp.h - m.ker.h + m.sh) / m.sh ↔ p * m.sh + m.ker.h ≤ m.inp.h) ∧
    (p < (m.inp.w - m.ker.w + m.sw) / m.sw ↔ p * m.sw + m.ker.w ≤ m.inp.w) := ⟨lt_total h.dh p, lt_total h.dw p⟩

/-- The convolution modulo `2^k` is exact, whichever operand is scaled up. -/
theorem c85_conv2d {h : Helper} (H : CtxOk h.c) (hh : init h.c = some h) (hf : ∀ l, l < h.c.L → UpFits h.c l) {N : ℕ} {m : Meta}
    {s : Sh3} (hs : Ok N m s) (hm : convErr h m + h.c.L / h.c.g < 1 / 2) (scale : Bool) (x k : ℕ → ZMod (2 ^ h.c.k)) :
    ∃ out, conv2d h N m s scale x k = some out ∧
      ∀ p q o, p * m.sh + m.ker.h ≤ m.inp.h → q * m.sw + m.ker.w ≤ m.inp.w → o < m.kernels → out p q o < 2 ^ h.c.k ∧
        ((out p q o : ℕ) : ZMod (2 ^ h.c.k)) = conv m.sh m.sw m.ker.h m.ker.w m.inp.c (inAt m x) (kerAt m k o) p q := by
  have hQ : (0 : ℚ) < h.c.Q := by exact_mod_cast Q_pos H
  have hk0 : 0 < h.c.k := by have := H.lo; omega
  have u0 := up_zero H hh hf
  have c0 := centre_zero H hh
  have hg : (0 : ℚ) ≤ h.c.L / h.c.g := by positivity
  obtain ⟨P, eP, -⟩ := encodeInput_spec hs x
  obtain ⟨K, eK, -⟩ := encodeKernels_spec hs k
  refine ⟨_, by
    unfold conv2d
    rw [eP, eK, mkHelper_eq hs]
    simp only [Option.bind_eq_bind, Option.bind_some]
    exact parseResult_eq hs 0 _, fun p q o h1 h2 ho => ?_⟩
  have p1 := (lt_total hs.dh p).2 h1
  have p2 := (lt_total hs.dw q).2 h2
  rw [if_pos ⟨ho, p1, p2⟩]
  unfold resVal
  dsimp only
  rw [extract_kept hs _ _ o p1 p2]
  have hl0 : (if scale = true then up h else centre h) 0 = 0 := by cases scale <;> simp [u0, c0]
  have hr0 : (if scale = true then centre h else up h) 0 = 0 := by cases scale <;> simp [u0, c0]
  rw [compute_conv hs hl0 hr0 eP eK h1 h2 ho]
  set T := Finset.range m.inp.c ×ˢ (Finset.range m.ker.h ×ˢ Finset.range m.ker.w) with hT
  have card : (T.card : ℚ) = (m.inp.c * (m.ker.h * m.ker.w) : ℕ) := by
    rw [hT, Finset.card_product, Finset.card_product, Finset.card_range, Finset.card_range, Finset.card_range]
  cases scale
  · -- kernels are scaled up
    have sc := sum_scale_on T (t := 2 ^ h.c.k) (Q := h.c.Q) (Y := 2 ^ (h.c.k - 1))
      (U := fun t => near ((h.c.Q : ℚ) * (kerAt m k o t.2.1 t.2.2 t.1).val / 2 ^ h.c.k))
      (x := fun t => ((kerAt m k o t.2.1 t.2.2 t.1).val : ℤ))
      (C := fun t => centred h.c.k (inAt m x (p * m.sh + t.2.1) (q * m.sw + t.2.2) t.1).val) (by positivity) hQ
      (fun t => by push_cast; exact cmNear_abs _) (fun t => cmCentred_abs hk0 (val_lt_pow _))
    rw [card] at sc
    have := decode_near H hh (W := ∑ t ∈ T, near ((h.c.Q : ℚ) * (kerAt m k o t.2.1 t.2.2 t.1).val / 2 ^ h.c.k) *
        centred h.c.k (inAt m x (p * m.sh + t.2.1) (q * m.sw + t.2.2) t.1).val) (B := convErr h m)
      (f := conv m.sh m.sw m.ker.h m.ker.w m.inp.c (fun a b c => centre h (inAt m x a b c)) (fun a b c => up h (kerAt m k o a b c)) p q)
      (fun l => by
        rw [conv_sum, Finset.sum_apply]
        push_cast
        refine Finset.sum_congr rfl fun t _ => ?_
        rw [Pi.mul_apply, up_int H hh hf, centre_int H hh, mul_comm]) sc (by linarith) (by linarith)
    refine ⟨this.1, this.2.trans ?_⟩
    rw [conv_sum]
    push_cast
    refine Finset.sum_congr rfl fun t _ => ?_
    rw [cmCentred_cast, cast_val_pow, cast_val_pow, mul_comm]
  · have sc := sum_scale_on T (t := 2 ^ h.c.k) (Q := h.c.Q) (Y := 2 ^ (h.c.k - 1))
      (U := fun t => near ((h.c.Q : ℚ) * (inAt m x (p * m.sh + t.2.1) (q * m.sw + t.2.2) t.1).val / 2 ^ h.c.k))
      (x := fun t => ((inAt m x (p * m.sh + t.2.1) (q * m.sw + t.2.2) t.1).val : ℤ))
      (C := fun t => centred h.c.k (kerAt m k o t.2.1 t.2.2 t.1).val) (by positivity) hQ
      (fun t => by push_cast; exact cmNear_abs _) (fun t => cmCentred_abs hk0 (val_lt_pow _))
    rw [card] at sc
    have := decode_near H hh (W := ∑ t ∈ T, near ((h.c.Q : ℚ) * (inAt m x (p * m.sh + t.2.1) (q * m.sw + t.2.2) t.1).val / 2 ^ h.c.k) *
        centred h.c.k (kerAt m k o t.2.1 t.2.2 t.1).val) (B := convErr h m)
      (f := conv m.sh m.sw m.ker.h m.ker.w m.inp.c (fun a b c => up h (inAt m x a b c)) (fun a b c => centre h (kerAt m k o a b c)) p q)
      (fun l => by
        rw [conv_sum, Finset.sum_apply]
        push_cast
        refine Finset.sum_congr rfl fun t _ => ?_
        rw [Pi.mul_apply, up_int H hh hf, centre_int H hh]) sc (by linarith) (by linarith)
    refine ⟨this.1, this.2.trans ?_⟩
    rw [conv_sum]
    push_cast
    refine Finset.sum_congr rfl fun t _ => ?_
    rw [cmCentred_cast, cast_val_pow, cast_val_pow]

/-! ## The choice of blocks -/

theorem mem_shapes {m : Meta} {cw : ℕ} {t : Sh3} (h : t ∈ shapes m cw) :
    0 < t.h ∧ t.h ≤ m.inp.h ∧ 0 < t.w ∧ t.w ≤ m.inp.w ∧ 0 < t.c ∧ t.c ≤ m.inp.c := by
  unfold shapes at h
  simp only [List.mem_flatMap, List.mem_map, List.mem_range] at h
  obtain ⟨c, hc, a, ha, b, hb, rfl⟩ := h
  dsimp only
  omega

theorem search_ok {N : ℕ} {m : Meta} (l : List Sh3)
    (hl : ∀ t ∈ l, 0 < t.h ∧ t.h ≤ m.inp.h ∧ 0 < t.w ∧ t.w ≤ m.inp.w ∧ 0 < t.c ∧ t.c ≤ m.inp.c) (st : Option ℕ × Sh3)
    (h0 : 0 < st.2.h ∧ st.2.h ≤ m.inp.h ∧ 0 < st.2.w ∧ st.2.w ≤ m.inp.w ∧ 0 < st.2.c ∧ st.2.c ≤ m.inp.c) :
    let s := (l.foldl (tryShape N m) st).2
    0 < s.h ∧ s.h ≤ m.inp.h ∧ 0 < s.w ∧ s.w ≤ m.inp.w ∧ 0 < s.c ∧ s.c ≤ m.inp.c := by
  induction l generalizing st with
  | nil => exact h0
  | cons t l ih =>
    rw [List.foldl_cons]
    refine ih (fun u hu => hl u (List.mem_cons_of_mem _ hu)) _ ?_
    unfold tryShape
    dsimp only
    split_ifs
    · exact h0
    · exact hl t List.mem_cons_self
    · exact h0

/-- The blocks that are chosen are inside of the input, and fit into a polynomial. -/
theorem c85_subShape {N : ℕ} {m : Meta} {s : Sh3} (hh : 0 < m.inp.h) (hw : 0 < m.inp.w) (hc : 0 < m.inp.c)
    (h : subShape N m = some s) : 0 < s.h ∧ s.h ≤ m.inp.h ∧ 0 < s.w ∧ s.w ≤ m.inp.w ∧ 0 < s.c ∧ s.c ≤ m.inp.c ∧ s.numel ≤ N := by
  unfold Model.Cconv.subShape at h
  dsimp only at h
  split_ifs at h with h1 h2 h3 h4 h5 h6
  · obtain rfl := Option.some.inj h
    refine ⟨hh, le_refl _, hw, le_refl _, ?_, by dsimp only; omega, h5⟩
    have : 0 < N / (m.inp.h * m.inp.w) := Nat.div_pos h3 (by omega)
    dsimp only
    omega
  · obtain rfl := Option.some.inj h
    obtain ⟨a, b, c, d, e, f⟩ := search_ok (N := N) (m := m) (shapes m (N / (m.ker.h * m.ker.w))) (fun t ht => mem_shapes ht)
      (none, m.inp) ⟨hh, le_refl _, hw, le_refl _, hc, le_refl _⟩
    exact ⟨a, b, c, d, e, f, h6⟩

/-- If a channel of the input fits into a polynomial, blocks are found, and have all rows and columns. -/
theorem c85_subShape_whole {N : ℕ} {m : Meta} (hk : 0 < m.ker.h * m.ker.w) (hkN : m.ker.h * m.ker.w ≤ N) (hch : m.inp.c = m.ker.c)
    (hhw : 0 < m.inp.h * m.inp.w) (hN : m.inp.h * m.inp.w ≤ N) : ∃ s, subShape N m = some s ∧ s.h = m.inp.h ∧ s.w = m.inp.w := by
  have hn : m.inp.h * m.inp.w * min (N / (m.ker.h * m.ker.w)) (min (N / (m.inp.h * m.inp.w)) m.inp.c) ≤ N := by
    calc _ ≤ m.inp.h * m.inp.w * (N / (m.inp.h * m.inp.w)) := Nat.mul_le_mul_left _ (by omega)
      _ ≤ N := Nat.mul_div_le _ _
  refine ⟨⟨m.inp.h, m.inp.w, min (N / (m.ker.h * m.ker.w)) (min (N / (m.inp.h * m.inp.w)) m.inp.c)⟩, ?_, rfl, rfl⟩
  unfold Model.Cconv.subShape
  dsimp only
  rw [if_neg (by omega), if_pos ⟨hch, Nat.div_pos hkN hk⟩, if_pos hN, if_neg (by omega)]
  exact if_pos hn

/-- The number of blocks of shape `t` that cover the input. -/
def blocks (m : Meta) (t : Sh3) : ℕ :=
  ((m.inp.c + t.c - 1) / t.c) * (((m.inp.h + t.h - 1) / t.h) * ((m.inp.w + t.w - 1) / t.w))

theorem search_min {N : ℕ} {m : Meta} (hb : 0 < m.batch) (l : List Sh3) (st : Option ℕ × Sh3)
    (h0 : ∀ c, st.1 = some c → c = blocks m st.2 * m.batch ∧ st.2.numel ≤ N) :
    let r := l.foldl (tryShape N m) st
    (∀ c, r.1 = some c → c = blocks m r.2 * m.batch ∧ r.2.numel ≤ N) ∧
      (∀ c, st.1 = some c → ∃ c', r.1 = some c' ∧ c' ≤ c) ∧
      ∀ t ∈ l, t.numel ≤ N → ∃ c', r.1 = some c' ∧ c' ≤ blocks m t * m.batch := by
  induction l generalizing st with
  | nil => exact ⟨h0, fun c hc => ⟨c, hc, le_refl _⟩, fun t ht => by simp at ht⟩
  | cons t l ih =>
    rw [List.foldl_cons]
    have hnum : t.c * t.h * t.w = t.numel := by unfold Sh3.numel; ring
    have hcost : cdiv m.inp.c t.c * (cdiv m.inp.h t.h * cdiv m.inp.w t.w * m.batch) = blocks m t * m.batch := by
      unfold blocks cdiv; ring
    have step : (∀ c, (tryShape N m st t).1 = some c → c = blocks m (tryShape N m st t).2 * m.batch ∧ (tryShape N m st t).2.numel ≤ N) ∧
        (∀ c, st.1 = some c → ∃ c', (tryShape N m st t).1 = some c' ∧ c' ≤ c) ∧
        (t.numel ≤ N → ∃ c', (tryShape N m st t).1 = some c' ∧ c' ≤ blocks m t * m.batch) := by
      unfold tryShape
      dsimp only
      rw [hnum, hcost]
      by_cases h1 : t.numel > N
      · simp only [if_pos h1]
        exact ⟨h0, fun c hc => ⟨c, hc, le_refl _⟩, fun h => absurd h (by omega)⟩
      · simp only [if_neg h1]
        rcases hst : st.1 with _ | c0
        · simp only [cheaper, if_true]
          exact ⟨fun c hc => ⟨(Option.some.inj hc).symm, Nat.le_of_not_lt h1⟩, fun c hc => by simp at hc, fun _ => ⟨_, rfl, le_refl _⟩⟩
        · simp only [cheaper, decide_eq_true_eq]
          split_ifs with h2
          · exact ⟨fun c hc => ⟨(Option.some.inj hc).symm, Nat.le_of_not_lt h1⟩, fun c hc => ⟨_, rfl, by
              obtain rfl := Option.some.inj hc; exact h2.le⟩, fun _ => ⟨_, rfl, le_refl _⟩⟩
          · exact ⟨h0, fun c hc => ⟨c0, hst, (Option.some.inj hc).le⟩, fun _ => ⟨c0, hst, by omega⟩⟩
    obtain ⟨a1, a2, a3⟩ := ih _ step.1
    refine ⟨a1, fun c hc => ?_, fun u hu hN => ?_⟩
    · obtain ⟨c', h1, h2⟩ := step.2.1 c hc
      obtain ⟨c'', h3, h4⟩ := a2 c' h1
      exact ⟨c'', h3, h4.trans h2⟩
    · rcases List.mem_cons.1 hu with rfl | hu
      · obtain ⟨c', h1, h2⟩ := step.2.2 hN
        obtain ⟨c'', h3, h4⟩ := a2 c' h1
        exact ⟨c'', h3, h4.trans h2⟩
      · exact a3 u hu hN

/-- If no channel fits, blocks are found too, and no other blocks that fit, with at most `N / (kh kw)` channels, are fewer. -/
theorem c85_subShape_search {N : ℕ} {m : Meta} (hb : 0 < m.batch) (hk : 0 < m.ker.h * m.ker.w) (hkN : m.ker.h * m.ker.w ≤ N)
    (hch : m.inp.c = m.ker.c) (hc : 0 < m.inp.c) (hh : 0 < m.inp.h) (hw : 0 < m.inp.w) (hN : N < m.inp.h * m.inp.w) :
    ∃ s, subShape N m = some s ∧ ∀ t : Sh3, 0 < t.h → t.h ≤ m.inp.h → 0 < t.w → t.w ≤ m.inp.w → 0 < t.c → t.c ≤ m.inp.c →
      t.c * (m.ker.h * m.ker.w) ≤ N → t.numel ≤ N → blocks m s ≤ blocks m t := by
  have hcw : 0 < N / (m.ker.h * m.ker.w) := Nat.div_pos hkN hk
  obtain ⟨a1, -, a3⟩ := search_min (N := N) hb (shapes m (N / (m.ker.h * m.ker.w))) (none, m.inp) (fun c h => by simp at h)
  have mem : ∀ t : Sh3, 0 < t.h → t.h ≤ m.inp.h → 0 < t.w → t.w ≤ m.inp.w → 0 < t.c → t.c ≤ m.inp.c →
      t.c ≤ N / (m.ker.h * m.ker.w) → t ∈ shapes m (N / (m.ker.h * m.ker.w)) := fun t h1 h2 h3 h4 h5 h6 h7 => by
    unfold shapes
    simp only [List.mem_flatMap, List.mem_map, List.mem_range]
    exact ⟨t.c - 1, by omega, t.h - 1, by omega, t.w - 1, by omega, by
      rw [Nat.sub_add_cancel h1, Nat.sub_add_cancel h3, Nat.sub_add_cancel h5]⟩
  obtain ⟨c1, e1, -⟩ := a3 ⟨1, 1, 1⟩ (mem _ Nat.one_pos hh Nat.one_pos hw Nat.one_pos hc hcw) (by
    show 1 ≤ N
    omega)
  refine ⟨((shapes m (N / (m.ker.h * m.ker.w))).foldl (tryShape N m) (none, m.inp)).2, ?_, fun t h1 h2 h3 h4 h5 h6 h7 h8 => ?_⟩
  · unfold Model.Cconv.subShape
    dsimp only
    rw [if_neg (by omega), if_pos ⟨hch, hcw⟩, if_neg (by omega)]
    exact if_pos (a1 c1 e1).2
  · obtain ⟨c', e2, h9⟩ := a3 t (mem t h1 h2 h3 h4 h5 h6 ((Nat.le_div_iff_mul_le hk).2 h7)) h8
    rw [(a1 c' e2).1] at h9
    exact Nat.le_of_mul_le_mul_right h9 hb

example : 64 < 8 * 16 ∧ subShape 64 ⟨1, 1, ⟨8, 16, 1⟩, ⟨3, 3, 1⟩, 1, 1⟩ = some ⟨4, 16, 1⟩ ∧
    blocks ⟨1, 1, ⟨8, 16, 1⟩, ⟨3, 3, 1⟩, 1, 1⟩ ⟨4, 16, 1⟩ = 2 := by decide +kernel

/-- The program: if the blocks that it chooses are not smaller than the kernel, its result is the convolution. -/
theorem c85_program {h : Helper} (H : CtxOk h.c) (hh : init h.c = some h) (hf : ∀ l, l < h.c.L → UpFits h.c l) {N : ℕ} {m : Meta}
    (hch : m.inp.c = m.ker.c) (hc : 0 < m.inp.c) (hn : 0 < m.kernels) (kh : 0 < m.ker.h) (kw : 0 < m.ker.w) (sh : 0 < m.sh)
    (sw : 0 < m.sw) (ih : m.ker.h ≤ m.inp.h) (iw : m.ker.w ≤ m.inp.w) {s : Sh3} (hs : subShape N m = some s) (bh : m.ker.h ≤ s.h)
    (bw : m.ker.w ≤ s.w) (hm : convErr h m + h.c.L / h.c.g < 1 / 2) (scale : Bool) (x k : ℕ → ZMod (2 ^ h.c.k)) :
    ∃ out, conv2d h N m s scale x k = some out ∧
      ∀ p q o, p * m.sh + m.ker.h ≤ m.inp.h → q * m.sw + m.ker.w ≤ m.inp.w → o < m.kernels → out p q o < 2 ^ h.c.k ∧
        ((out p q o : ℕ) : ZMod (2 ^ h.c.k)) = conv m.sh m.sw m.ker.h m.ker.w m.inp.c (inAt m x) (kerAt m k o) p q := by
  obtain ⟨-, a, -, b, c, d, e⟩ := c85_subShape (by omega) (by omega) hc hs
  exact c85_conv2d H hh hf ⟨hch, hn, ⟨kh, sh, bh, a⟩, ⟨kw, sw, bw, b⟩, c, d, e⟩ hm scale x k

/-- The same if a channel fits into a polynomial; then the choice of blocks never fails. -/
theorem c85_program_whole {h : Helper} (H : CtxOk h.c) (hh : init h.c = some h) (hf : ∀ l, l < h.c.L → UpFits h.c l) {N : ℕ} {m : Meta}
    (hch : m.inp.c = m.ker.c) (hc : 0 < m.inp.c) (hn : 0 < m.kernels) (kh : 0 < m.ker.h) (kw : 0 < m.ker.w) (sh : 0 < m.sh)
    (sw : 0 < m.sw) (ih : m.ker.h ≤ m.inp.h) (iw : m.ker.w ≤ m.inp.w) (hN : m.inp.h * m.inp.w ≤ N)
    (hm : convErr h m + h.c.L / h.c.g < 1 / 2) (scale : Bool) (x k : ℕ → ZMod (2 ^ h.c.k)) :
    ∃ s out, subShape N m = some s ∧ conv2d h N m s scale x k = some out ∧
      ∀ p q o, p * m.sh + m.ker.h ≤ m.inp.h → q * m.sw + m.ker.w ≤ m.inp.w → o < m.kernels → out p q o < 2 ^ h.c.k ∧
        ((out p q o : ℕ) : ZMod (2 ^ h.c.k)) = conv m.sh m.sw m.ker.h m.ker.w m.inp.c (inAt m x) (kerAt m k o) p q := by
  obtain ⟨s, e, e1, e2⟩ := c85_subShape_whole (m := m) (N := N) (Nat.mul_pos kh kw) ((Nat.mul_le_mul ih iw).trans hN) hch
    (Nat.mul_pos (by omega) (by omega)) hN
  obtain ⟨out, eo, ho⟩ := c85_program H hh hf hch hc hn kh kw sh sw ih iw e (by omega) (by omega) hm scale x k
  exact ⟨s, out, e, eo, ho⟩

/-- The claim without the condition on blocks is false: the choice ignores that blocks overlap.  A channel of 8 x 16 with a kernel of
5 x 1 and polynomials of degree 64 gets blocks of 4 rows, so a window of no rows, by which is divided. -/
theorem c85_block_too_small : validMeta 64 ⟨1, 1, ⟨8, 16, 1⟩, ⟨5, 1, 1⟩, 1, 1⟩ = true ∧
    Model.Cconv.subShape 64 ⟨1, 1, ⟨8, 16, 1⟩, ⟨5, 1, 1⟩, 1, 1⟩ = some ⟨4, 16, 1⟩ ∧
    ∀ (h : Helper) (scale : Bool) (x k : ℕ → ZMod (2 ^ h.c.k)),
      conv2d h 64 ⟨1, 1, ⟨8, 16, 1⟩, ⟨5, 1, 1⟩, 1, 1⟩ ⟨4, 16, 1⟩ scale x k = none := by
  refine ⟨by decide +kernel, by decide +kernel, fun h scale x k => ?_⟩
  have e : mkHelper ⟨1, 1, ⟨8, 16, 1⟩, ⟨5, 1, 1⟩, 1, 1⟩ ⟨4, 16, 1⟩ = none := by decide +kernel
  unfold conv2d encodeInput
  rw [e]
  split_ifs <;> rfl

/-- The table of shapes does not know the degree: an instance with degree 4 gets, for the same convolution, the blocks of an earlier
instance with degree 16, which do not fit. -/
theorem c85_memo : let m : Meta := ⟨1, 1, ⟨4, 4, 1⟩, ⟨2, 2, 1⟩, 1, 1⟩
    ∃ memo, subShapeMemo 16 m (fun _ => none) = some (⟨4, 4, 1⟩, memo) ∧ subShapeMemo 8 m memo = some (⟨4, 4, 1⟩, memo) ∧
      subShape 8 m = some ⟨2, 4, 1⟩ ∧ Ok 8 m ⟨2, 4, 1⟩ ∧
      ∀ (h : Helper) (scale : Bool) (x k : ℕ → ZMod (2 ^ h.c.k)), conv2d h 8 m ⟨4, 4, 1⟩ scale x k = none := by
  dsimp only
  have e : subShape 16 ⟨1, 1, ⟨4, 4, 1⟩, ⟨2, 2, 1⟩, 1, 1⟩ = some ⟨4, 4, 1⟩ := by decide +kernel
  refine ⟨Function.update (fun _ => none) ⟨1, 1, ⟨4, 4, 1⟩, ⟨2, 2, 1⟩, 1, 1⟩ (some ⟨4, 4, 1⟩), ?_, ?_, by decide +kernel,
    ⟨rfl, by norm_num, ⟨by norm_num, by norm_num, by norm_num, by norm_num⟩, ⟨by norm_num, by norm_num, by norm_num, by norm_num⟩,
      by norm_num, by norm_num, by decide⟩, fun h scale x k => ?_⟩
  · unfold subShapeMemo
    dsimp only
    rw [e]
    rfl
  · unfold subShapeMemo
    rw [Function.update_self]
  · unfold conv2d encodeInput
    rw [if_neg (by decide)]
    rfl

/-- Blocks found for a smaller degree are good. -/
theorem c85_memo_smaller {N M : ℕ} {m : Meta} {s : Sh3} (hNM : N ≤ M) (h : Ok N m s) : Ok M m s :=
  { h with fits := h.fits.trans hNM }

/-- A stride of zero passes the check of the description, and is divided by. -/
theorem c85_stride_zero : let m : Meta := ⟨1, 1, ⟨4, 4, 1⟩, ⟨2, 2, 1⟩, 0, 1⟩
    validMeta 16 m = true ∧ subShape 16 m = some ⟨4, 4, 1⟩ ∧
    ∀ (h : Helper) (scale : Bool) (x k : ℕ → ZMod (2 ^ h.c.k)), conv2d h 16 m ⟨4, 4, 1⟩ scale x k = none := by
  dsimp only
  refine ⟨by decide +kernel, by decide +kernel, fun h scale x k => ?_⟩
  have e : mkHelper ⟨1, 1, ⟨4, 4, 1⟩, ⟨2, 2, 1⟩, 0, 1⟩ ⟨4, 4, 1⟩ =
    some ⟨⟨1, 1, ⟨4, 4, 1⟩, ⟨2, 2, 1⟩, 0, 1⟩, ⟨4, 4, 1⟩, ⟨3, 3, 1⟩, ⟨1, 1, 1⟩⟩ := by decide +kernel
  have r : resultCoeffs ⟨⟨1, 1, ⟨4, 4, 1⟩, ⟨2, 2, 1⟩, 0, 1⟩, ⟨4, 4, 1⟩, ⟨3, 3, 1⟩, ⟨1, 1, 1⟩⟩ 0 0 = none := by decide +kernel
  unfold conv2d
  rw [e]
  rcases encodeInput 16 ⟨1, 1, ⟨4, 4, 1⟩, ⟨2, 2, 1⟩, 0, 1⟩ ⟨4, 4, 1⟩ x with _ | P
  · rfl
  rcases encodeKernels 16 ⟨1, 1, ⟨4, 4, 1⟩, ⟨2, 2, 1⟩, 0, 1⟩ ⟨4, 4, 1⟩ k with _ | K
  · rfl
  simp only [Option.bind_eq_bind, Option.bind_some]
  unfold Model.Cconv.parseResult
  dsimp only
  simp [List.range_succ, r]

/-! ## Examples -/

/-- blocks of 4 x 5 x 2 for an input of 5 x 6 x 3 and a kernel of 2 x 3 -/
example : Ok 40 ⟨1, 2, ⟨5, 6, 3⟩, ⟨2, 3, 3⟩, 2, 1⟩ ⟨4, 5, 2⟩ :=
  ⟨rfl, by norm_num, ⟨by norm_num, by norm_num, by norm_num, by norm_num⟩, ⟨by norm_num, by norm_num, by norm_num, by norm_num⟩,
    by norm_num, by norm_num, by decide⟩

/-- a 3x3x2 input in blocks of 2x3x1, a 2x2 kernel: an entry of the result -/
example : (do
    let P ← encodeInput 8 ⟨1, 1, ⟨3, 3, 2⟩, ⟨2, 2, 2⟩, 1, 1⟩ ⟨2, 3, 1⟩ fun i => (i : ℤ) + 1
    let K ← encodeKernels 8 ⟨1, 1, ⟨3, 3, 2⟩, ⟨2, 2, 2⟩, 1, 1⟩ ⟨2, 3, 1⟩ fun i => (2 : ℤ) - i
    let H ← mkHelper ⟨1, 1, ⟨3, 3, 2⟩, ⟨2, 2, 2⟩, 1, 1⟩ ⟨2, 3, 1⟩
    let out ← parseResult 8 H 0 (Model.Cconv.compute 8 H P K)
    return [out 0 0 0, out 1 0 0, out 1 1 0]) =
    some ([(0, 0), (1, 0), (1, 1)].map fun e => conv 1 1 2 2 2 (fun h w c => (((h * 3 + w) * 2 + c : ℕ) : ℤ) + 1)
      (fun h w c => 2 - (((h * 2 + w) * 2 + c : ℕ) : ℤ)) e.1 e.2) := by
  decide +kernel

/-- for the moduli of the matrix products, sums of up to `2^13` products are exact -/
theorem c85_moduli {ring : ℕ} (hr : ring ∈ [32, 64, 128]) : ∃ h, init (dotEcd ring 2305843009213554689) = some h ∧ CtxOk h.c ∧
    init h.c = some h ∧ (∀ l, l < h.c.L → UpFits h.c l) ∧ h.c.k = ring ∧
    ∀ m : Meta, m.inp.c * (m.ker.h * m.ker.w) ≤ 2 ^ 13 → convErr h m + h.c.L / h.c.g < 1 / 2 := by
  have t : ∀ ring ∈ [32, 64, 128], ctxTest (dotEcd ring 2305843009213554689) = true ∧
      (∀ l, l < (dotEcd ring 2305843009213554689).L → (dotEcd ring 2305843009213554689).Q % 2 ^ ring +
        (dotEcd ring 2305843009213554689).q l ≤ if ring ≤ 64 then 2 ^ 64 else 2 ^ 128) ∧
      8 * (2 ^ 13 * (2 ^ ring * 2 ^ (ring - 1))) ≤ 2 * (dotEcd ring 2305843009213554689).Q * 1 ∧
      (dotEcd ring 2305843009213554689).L * 8 ≤ 2305843009213554689 := by
    decide +kernel
  obtain ⟨t1, t3, t4, t5⟩ := t ring hr
  have He := ctxTest_ok t1
  obtain ⟨he, ee, Ke⟩ := init_ok He
  have ce : he.c = dotEcd ring 2305843009213554689 := Ke.ctx
  refine ⟨he, ee, by rw [ce]; exact He, by rw [ce]; exact ee, by rw [ce]; exact t3, by rw [ce]; rfl, fun m hm => ?_⟩
  have hQ : (0 : ℚ) < (dotEcd ring 2305843009213554689).Q := by exact_mod_cast Q_pos He
  have a1 : convErr he m ≤ 1 / 8 := by
    unfold convErr
    rw [ce]
    have hm' : ((m.inp.c * (m.ker.h * m.ker.w) : ℕ) : ℚ) ≤ 2 ^ 13 := by exact_mod_cast hm
    have t4' : (8 : ℚ) * (2 ^ 13 * (2 ^ ring * 2 ^ (ring - 1))) ≤ 2 * (dotEcd ring 2305843009213554689).Q * 1 := by exact_mod_cast t4
    show ((m.inp.c * (m.ker.h * m.ker.w) : ℕ) : ℚ) * (2 ^ ring * 2 ^ (ring - 1) / (2 * (dotEcd ring 2305843009213554689).Q)) ≤ 1 / 8
    rw [← mul_div_assoc, div_le_div_iff₀ (by positivity) (by positivity)]
    calc _ ≤ (2 : ℚ) ^ 13 * (2 ^ ring * 2 ^ (ring - 1)) * 8 := by gcongr
      _ ≤ _ := by linarith
  have a2 : (he.c.L : ℚ) / he.c.g ≤ 1 / 8 := by
    rw [ce]
    show ((dotEcd ring 2305843009213554689).L : ℚ) / (2305843009213554689 : ℕ) ≤ 1 / 8
    rw [div_le_div_iff₀ (by norm_num) (by norm_num), one_mul]
    exact_mod_cast t5
  linarith

/-- a 32x32x16 image, 3x3 kernels, strides of 2, 64 bits, degree 8192 -/
example : ∃ h : Helper, h.c.k = 64 ∧ ∀ x k : ℕ → ZMod (2 ^ h.c.k), ∃ s out,
    subShape 8192 ⟨1, 8, ⟨32, 32, 16⟩, ⟨3, 3, 16⟩, 2, 2⟩ = some s ∧
    conv2d h 8192 ⟨1, 8, ⟨32, 32, 16⟩, ⟨3, 3, 16⟩, 2, 2⟩ s true x k = some out := by
  obtain ⟨h, -, H, hh, hf, hk, hm⟩ := c85_moduli (ring := 64) (by simp)
  refine ⟨h, hk, fun x k => ?_⟩
  obtain ⟨s, out, e, eo, -⟩ := c85_program_whole H hh hf (N := 8192) (m := ⟨1, 8, ⟨32, 32, 16⟩, ⟨3, 3, 16⟩, 2, 2⟩) rfl (by norm_num)
    (by norm_num) (by norm_num) (by norm_num) (by norm_num) (by norm_num) (by norm_num) (by norm_num) (by norm_num) (hm _ (by norm_num)) true x k
  exact ⟨s, out, e, eo⟩

end Spu.Props.Cconv

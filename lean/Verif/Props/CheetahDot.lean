import Verif.Lemmas.CheetahParse
import Verif.Props.CheetahMul
import Mathlib.Algebra.BigOperators.Field

set_option autoImplicit false

/-!
C78: Cheetah's matrix products.
-/

namespace Spu.Props

open Spu.Model.Ms Spu.Model.Cmul Spu.Spec.Ms Spu.Spec.Cmul Spu.Spec.Nega Spu.Model.Cdot

/-! ## Coefficients as integers -/

theorem ctx_of_init {c : Ctx} (H : CtxOk c) {h : Helper} (hh : init c = some h) : h.c = c := by
  obtain ⟨h', e, K⟩ := init_ok H
  obtain rfl : h = h' := by rw [hh] at e; exact Option.some.inj e
  exact K.ctx

theorem val_lt_pow {k : ℕ} (v : ZMod (2 ^ k)) : v.val < 2 ^ k := by
  haveI : NeZero (2 ^ k) := ⟨by positivity⟩
  exact ZMod.val_lt v

theorem cast_val_pow {k : ℕ} (v : ZMod (2 ^ k)) : ((v.val : ℕ) : ZMod (2 ^ k)) = v := by
  haveI : NeZero (2 ^ k) := ⟨by positivity⟩
  exact ZMod.natCast_zmod_val v

theorem up_int {h : Helper} (H : CtxOk h.c) (hh : init h.c = some h) (hf : ∀ l, l < h.c.L → UpFits h.c l)
    (v : ZMod (2 ^ h.c.k)) (l : Fin h.c.L) : up h v l = ((near ((h.c.Q : ℚ) * v.val / 2 ^ h.c.k) : ℤ) : ZMod (h.c.q l)) := by
  unfold up
  rw [c58_up H hh l.2 (val_lt_pow v) (hf l l.2), Option.getD_some, cmToNat_castq _ (by have := H.one l l.2; omega)]

theorem centre_int {h : Helper} (H : CtxOk h.c) (hh : init h.c = some h) (v : ZMod (2 ^ h.c.k)) (l : Fin h.c.L) :
    centre h v l = ((centred h.c.k v.val : ℤ) : ZMod (h.c.q l)) := by
  unfold centre
  rw [c58_centre H hh l.2 (val_lt_pow v), Option.getD_some, cmToNat_castq _ (by have := H.one l l.2; omega)]

/-- an entry scaled up, possibly negated twice -/
theorem lhsVal_up {h : Helper} (H : CtxOk h.c) (hh : init h.c = some h) (hf : ∀ l, l < h.c.L → UpFits h.c l) (s : Dims)
    (v : ZMod (2 ^ h.c.k)) (r c : ℕ) : ∃ U x : ℤ, (∀ l, lhsVal s (up h) v r c l = (U : ZMod (h.c.q l))) ∧
      |(U : ℚ) - h.c.Q * x / 2 ^ h.c.k| ≤ 1 / 2 ∧ (x : ZMod (2 ^ h.c.k)) = v := by
  unfold lhsVal
  split_ifs
  · refine ⟨-near ((h.c.Q : ℚ) * (-v).val / 2 ^ h.c.k), -((-v).val : ℤ), fun l => ?_, ?_, ?_⟩
    · rw [Pi.neg_apply, up_int H hh hf]; push_cast; rfl
    · have := cmNear_abs ((h.c.Q : ℚ) * (-v).val / 2 ^ h.c.k)
      rw [← abs_neg] at this
      push_cast
      convert this using 2
      ring
    · push_cast
      rw [cast_val_pow, neg_neg]
  · exact ⟨_, (v.val : ℤ), up_int H hh hf v, by push_cast; exact cmNear_abs _, by push_cast; exact cast_val_pow v⟩

theorem lhsVal_centre {h : Helper} (H : CtxOk h.c) (hh : init h.c = some h) (s : Dims)
    (v : ZMod (2 ^ h.c.k)) (r c : ℕ) : ∃ C : ℤ, (∀ l, lhsVal s (centre h) v r c l = (C : ZMod (h.c.q l))) ∧
      |(C : ℚ)| ≤ 2 ^ (h.c.k - 1) ∧ (C : ZMod (2 ^ h.c.k)) = v := by
  have hk : 0 < h.c.k := by have := H.lo; omega
  unfold lhsVal
  split_ifs
  · refine ⟨-centred h.c.k (-v).val, fun l => ?_, ?_, ?_⟩
    · rw [Pi.neg_apply, centre_int H hh]; push_cast; rfl
    · push_cast
      rw [abs_neg]
      exact cmCentred_abs hk (val_lt_pow _)
    · push_cast
      rw [cmCentred_cast, cast_val_pow, neg_neg]
  · exact ⟨_, centre_int H hh v, cmCentred_abs hk (val_lt_pow _), by rw [cmCentred_cast, cast_val_pow]⟩

theorem sum_scale {t Q Y : ℚ} (ht : 0 < t) (hQ : 0 < Q) {U x C : ℕ → ℤ} (K : ℕ)
    (hU : ∀ k, k < K → |(U k : ℚ) - Q * x k / t| ≤ 1 / 2) (hC : ∀ k, k < K → |(C k : ℚ)| ≤ Y) :
    |t * ((∑ k ∈ Finset.range K, U k * C k : ℤ) : ℚ) / Q - ((∑ k ∈ Finset.range K, x k * C k : ℤ) : ℚ)| ≤
      K * (t * Y / (2 * Q)) := by
  have e : t * ((∑ k ∈ Finset.range K, U k * C k : ℤ) : ℚ) / Q - ((∑ k ∈ Finset.range K, x k * C k : ℤ) : ℚ) =
      ∑ k ∈ Finset.range K, ((U k : ℚ) - Q * x k / t) * C k * (t / Q) := by
    push_cast
    rw [Finset.mul_sum, Finset.sum_div, ← Finset.sum_sub_distrib]
    refine Finset.sum_congr rfl fun k _ => ?_
    field_simp
  rw [e]
  have hq : 0 ≤ t / Q := by positivity
  calc _ ≤ ∑ k ∈ Finset.range K, |((U k : ℚ) - Q * x k / t) * C k * (t / Q)| := Finset.abs_sum_le_sum_abs _ _
    _ ≤ ∑ _k ∈ Finset.range K, t * Y / (2 * Q) := by
        refine Finset.sum_le_sum fun k hk => ?_
        have hk := Finset.mem_range.1 hk
        rw [abs_mul, abs_mul, abs_of_nonneg hq]
        calc _ ≤ 1 / 2 * Y * (t / Q) := by
              apply mul_le_mul_of_nonneg_right _ hq
              exact mul_le_mul (hU k hk) (hC k hk) (abs_nonneg _) (by norm_num)
          _ = _ := by field_simp
    _ = _ := by rw [Finset.sum_const, Finset.card_range, nsmul_eq_mul]

/-- entry `(r, c)` of the product of the matrices `x` and `y`, in row-major order -/
def mmEntry {k : ℕ} (m : Dims) (x y : ℕ → ZMod (2 ^ k)) (r c : ℕ) : ZMod (2 ^ k) :=
  matMul m.d1 (fun r k => x (r * m.d1 + k)) (fun k c => y (k * m.d2 + c)) r c

/-- The coefficients of `DoCompute` at the positions of the result are the entries of the product, scaled up. -/
theorem products_spec {h : Helper} (H : CtxOk h.c) (hh : init h.c = some h) (hf : ∀ l, l < h.c.L → UpFits h.c l) {N : ℕ}
    {m s : Dims} (hs : Fits N s) (x y : ℕ → ZMod (2 ^ h.c.k)) : ∃ cts, products h N m s x y = some cts ∧
      ∀ r, r < m.d0 → ∀ c, c < m.d2 → ∃ V v : ℤ,
        (∀ l, cts (r / s.d0 * cdiv m.d2 s.d2 + c / s.d2) (resIndex s (r % s.d0) (c % s.d2)) l = (V : ZMod (h.c.q l))) ∧
        |(2 : ℚ) ^ h.c.k * V / h.c.Q - v| ≤ m.d1 * (2 ^ h.c.k * 2 ^ (h.c.k - 1) / (2 * h.c.Q)) ∧
        (v : ZMod (2 ^ h.c.k)) = mmEntry m x y r c := by
  have hQ : (0 : ℚ) < h.c.Q := by exact_mod_cast Q_pos H
  have u0 : up h 0 = 0 := by
    funext l
    rw [up_int H hh hf]
    have : ((0 : ZMod (2 ^ h.c.k)).val : ℚ) = 0 := by simp
    rw [this, mul_zero, zero_div]
    simp [near]
    norm_num
  have c0 : centre h 0 = 0 := by
    funext l
    rw [centre_int H hh]
    simp [centred]
  unfold products
  dsimp only
  by_cases he : cdiv m.d0 s.d0 * cdiv m.d1 s.d1 ≤ cdiv m.d1 s.d1 * cdiv m.d2 s.d2
  · obtain ⟨P, Q, eP, eQ, hc⟩ := compute_spec (m := m) hs u0 c0 (x := x) (y := y)
    simp only [he, decide_true, if_true, eP, eQ, Option.bind_eq_bind, Option.bind_some]
    refine ⟨_, rfl, fun r hr c hcc => ?_⟩
    choose U xi a1 a2 a3 using fun k => lhsVal_up H hh hf s (x (r * m.d1 + k)) r k
    refine ⟨∑ k ∈ Finset.range m.d1, U k * centred h.c.k (y (k * m.d2 + c)).val,
      ∑ k ∈ Finset.range m.d1, xi k * centred h.c.k (y (k * m.d2 + c)).val, fun l => ?_, ?_, ?_⟩
    · rw [hc r hr c hcc, Finset.sum_apply]
      push_cast
      refine Finset.sum_congr rfl fun k _ => ?_
      rw [Pi.mul_apply, a1, centre_int H hh]
    · exact sum_scale (by positivity) hQ _ (fun k _ => a2 k)
        (fun k _ => cmCentred_abs (by have := H.lo; omega) (val_lt_pow _))
    · unfold mmEntry matMul
      push_cast
      refine Finset.sum_congr rfl fun k _ => ?_
      rw [a3, cmCentred_cast, cast_val_pow]
  · obtain ⟨P, Q, eP, eQ, hc⟩ := compute_spec (m := m) hs c0 u0 (x := x) (y := y)
    simp only [he, decide_false, Bool.false_eq_true, if_false, eP, eQ, Option.bind_eq_bind, Option.bind_some]
    refine ⟨_, rfl, fun r hr c hcc => ?_⟩
    choose C a1 a2 a3 using fun k => lhsVal_centre H hh s (x (r * m.d1 + k)) r k
    refine ⟨∑ k ∈ Finset.range m.d1, near ((h.c.Q : ℚ) * (y (k * m.d2 + c)).val / 2 ^ h.c.k) * C k,
      ∑ k ∈ Finset.range m.d1, ((y (k * m.d2 + c)).val : ℤ) * C k, fun l => ?_, ?_, ?_⟩
    · rw [hc r hr c hcc, Finset.sum_apply]
      push_cast
      refine Finset.sum_congr rfl fun k _ => ?_
      rw [Pi.mul_apply, a1, up_int H hh hf, mul_comm]
    · exact sum_scale (by positivity) hQ _ (fun k _ => by push_cast; exact cmNear_abs _) (fun k _ => a2 k)
    · unfold mmEntry matMul
      push_cast
      refine Finset.sum_congr rfl fun k _ => ?_
      rw [a3, cast_val_pow, mul_comm]

/-! ## Losing moduli, and shares -/

theorem drops_int {ce cd : Ctx} (He : CtxOk ce) (Hd : CtxOk cd) (hk : cd.k = ce.k) {E : ℚ} {a : Res ce} {b : Res cd}
    (h : Drops ce cd E a b) {V : ℤ} (hV : ∀ l, a l = V) :
    ∃ W : ℤ, (∀ l, b l = W) ∧ |(2 : ℚ) ^ cd.k * W / cd.Q - (2 : ℚ) ^ ce.k * V / ce.Q| ≤ E := by
  obtain ⟨V', W', h1, h2, h3⟩ := h
  have hQe : (0 : ℚ) < ce.Q := by exact_mod_cast Q_pos He
  have hQd : (0 : ℚ) < cd.Q := by exact_mod_cast Q_pos Hd
  obtain ⟨z, hz⟩ : (ce.Q : ℤ) ∣ V - V' := cmQ_dvd He fun l hl => by
    have := (hV ⟨l, hl⟩).symm.trans (h1 ⟨l, hl⟩)
    rw [← ZMod.intCast_zmod_eq_zero_iff_dvd]
    push_cast
    rw [sub_eq_zero]
    exact this
  refine ⟨W' + cd.Q * z, fun l => ?_, ?_⟩
  · rw [h2 l]
    have hd : (cd.q l : ℤ) ∣ cd.Q := by
      rw [Ctx.Q, Nat.cast_prod]
      exact Finset.dvd_prod_of_mem (fun l => (cd.q l : ℤ)) (Finset.mem_range.2 l.2)
    push_cast
    have := (ZMod.intCast_zmod_eq_zero_iff_dvd _ _).2 hd
    push_cast at this
    rw [this, zero_mul, add_zero]
  · have : (V : ℚ) = V' + ce.Q * z := by
      have : V = V' + ce.Q * z := by linarith
      exact_mod_cast this
    rw [this]
    push_cast
    rw [hk] at h3 ⊢
    convert h3 using 2
    field_simp
    ring

/-- The two shares of a masked coefficient. -/
theorem share_elem {h : Helper} (H : CtxOk h.c) (hh : init h.c = some h) (f mask : Res h.c) {W v : ℤ} {B : ℚ}
    (hW : ∀ l, f l = W) (hB : |(2 : ℚ) ^ h.c.k * W / h.c.Q - v| ≤ B) (hm : B + 2 * (h.c.L / h.c.g) < 1) :
    SharesOf h.c.k (decode h mask) (decode h (f - mask)) v (MaskClear h.c (B + h.c.L / h.c.g) mask) := by
  have dn : ∀ g : Res h.c, down h (bitCeil h.c.k) (fun l => if hl : l < h.c.L then (g ⟨l, hl⟩).val else 0) =
      some (decode h g) := fun g => by
    obtain ⟨R, -, hR⟩ := cmCrt H fun l => if hl : l < h.c.L then (g ⟨l, hl⟩).val else 0
    obtain ⟨δ, -, -, e⟩ := c58_down H hh hR
    unfold decode
    rw [e]
    rfl
  have cv : ∀ (g : Res h.c) l (hl : l < h.c.L), (((g ⟨l, hl⟩).val : ℕ) : ZMod (h.c.q l)) = g ⟨l, hl⟩ := fun g l hl => by
    haveI : NeZero (h.c.q l) := ⟨by have := H.one l hl; omega⟩
    exact ZMod.natCast_zmod_val _
  obtain ⟨a1, a2, e, he, hs, hz⟩ := cmElem H hh (V := W) (v := v) (B := B) (by
    intro l hl
    rw [← ZMod.intCast_zmod_eq_zero_iff_dvd]
    dsimp only
    rw [dif_pos hl, dif_pos hl]
    push_cast
    rw [cv (f - mask) l hl, cv mask l hl, Pi.sub_apply, hW ⟨l, hl⟩]
    ring) hB hm (dn mask) (dn (f - mask))
  refine ⟨a1, a2, ⟨e, he, hs⟩, fun hc => ?_⟩
  obtain ⟨R, -, hR⟩ := cmCrt H fun l => if hl : l < h.c.L then (mask ⟨l, hl⟩).val else 0
  have := (hz R hR).1 (hc R fun l => by
    have := hR l l.2
    rw [dif_pos l.2] at this
    rw [← cv mask l l.2, ZMod.natCast_eq_natCast_iff]
    exact this)
  rw [hs, this]
  simp

theorem sharesOf_cast {k k' a b : ℕ} (hk : k = k') {v : ℤ} {p : Prop} (h : SharesOf k a b v p) : SharesOf k' a b v p := by
  subst hk; exact h

/-! ## What is assumed of the environment -/

/-- The noise is at most `E` before and `E'` after the moduli are lost, and the inverses are inverses. -/
structure EnvOk {ce cd : Ctx} (n : ℕ) (E E' : ℚ) (v : Env ce cd) : Prop where
  dn : ∀ p t a, Drops ce cd E a (v.dn p t a)
  ks : ∀ p t a, Drops cd cd E' a (v.ks p t a)
  gap : ∀ l, l ≤ n → 2 ^ l * v.invGap (2 ^ l) = 1
  deg : 2 ^ n * v.invN = 1

/-- Both contexts are good, and for the same ring. -/
structure Ctxs (he hd : Helper) : Prop where
  eok : CtxOk he.c
  einit : init he.c = some he
  fits : ∀ l, l < he.c.L → UpFits he.c l
  dok : CtxOk hd.c
  dinit : init hd.c = some hd
  k : hd.c.k = he.c.k

/-- the error before rounding: encoding, and noise -/
def dotErr (he : Helper) (m : Dims) (E : ℚ) : ℚ := m.d1 * (2 ^ he.c.k * 2 ^ (he.c.k - 1) / (2 * he.c.Q)) + E

/-- What the products of the parties are to be: shares of the values `val`, of which one is a mask of its own for every value. -/
def DotOk (h : Helper) (k size : ℕ) (β : ℚ) (mask : ℕ → ℕ → Res h.c) (val : ℕ → ZMod (2 ^ k)) (a b : ℕ → ℕ) : Prop :=
  ∃ loc : ℕ → ℕ × ℕ, (∀ i, i < size → ∀ j, j < size → loc i = loc j → i = j) ∧ ∀ i, i < size →
    a i = decode h (mask (loc i).1 (loc i).2) ∧
    SharesOf k (a i) (b i) (val i) (MaskClear h.c β (mask (loc i).1 (loc i).2))

/-- Blocks and places in blocks determine entries. -/
theorem block_inj {m s : Dims} (h0 : 0 < s.d0) (h2 : 0 < s.d2) {r c r' c' : ℕ} (hc : c < m.d2) (hc' : c' < m.d2)
    (h : r / s.d0 * cdiv m.d2 s.d2 + c / s.d2 = r' / s.d0 * cdiv m.d2 s.d2 + c' / s.d2)
    (h' : r % s.d0 * s.d2 + c % s.d2 = r' % s.d0 * s.d2 + c' % s.d2) : r = r' ∧ c = c' := by
  have j := jobDM (l := r / s.d0) (div_lt_cdiv h2 hc)
  have j' := jobDM (l := r' / s.d0) (div_lt_cdiv h2 hc')
  have g := jobDM (l := r % s.d0) (Nat.mod_lt c h2)
  have g' := jobDM (l := r' % s.d0) (Nat.mod_lt c' h2)
  rw [← h] at j'
  rw [← h'] at g'
  have e1 := j.1.symm.trans j'.1
  have e2 := j.2.symm.trans j'.2
  have e3 := g.1.symm.trans g'.1
  have e4 := g.2.symm.trans g'.2
  refine ⟨?_, ?_⟩
  · rw [← Nat.div_add_mod' r s.d0, ← Nat.div_add_mod' r' s.d0, e1, e3]
  · rw [← Nat.div_add_mod' c s.d2, ← Nat.div_add_mod' c' s.d2, e2, e4]

theorem entry_dm {m : Dims} {i : ℕ} (hi : i < m.d0 * m.d2) :
    i / m.d2 < m.d0 ∧ i % m.d2 < m.d2 ∧ i / m.d2 * m.d2 + i % m.d2 = i := by
  have pos2 : 0 < m.d2 := Nat.pos_of_ne_zero fun e => by simp [e] at hi
  exact ⟨(Nat.div_lt_iff_lt_mul pos2).2 hi, Nat.mod_lt _ pos2, Nat.div_add_mod' _ _⟩

theorem plainOLE_spec {he hd : Helper} (C : Ctxs he hd) {n : ℕ} {E E' : ℚ} {v : Env he.c hd.c} (hv : EnvOk n E E' v)
    {m s : Dims} (hs : Fits (2 ^ n) s) (hm : dotErr he m E + 2 * (hd.c.L / hd.c.g) < 1) (x y : ℕ → ZMod (2 ^ he.c.k)) :
    ∃ a b, plainOLE he hd v n m s x y = some (a, b) ∧ DotOk hd he.c.k (m.d0 * m.d2) (dotErr he m E + hd.c.L / hd.c.g) v.mask
      (fun i => mmEntry m x y (i / m.d2) (i % m.d2)) a b := by
  obtain ⟨cts, e, hc⟩ := products_spec C.eok C.einit C.fits (m := m) hs x y
  obtain ⟨a, ea, ha⟩ := parseResult_spec (m := m) hs 0 fun p t => decode hd (v.mask p t)
  obtain ⟨b, eb, hb⟩ := parseResult_spec (m := m) hs 0 fun p t =>
    decode hd (if kept m s p t then v.dn p t (cts p t) - v.mask p t else v.junk p t)
  refine ⟨a, b, ?_, fun i => (i / m.d2 / s.d0 * cdiv m.d2 s.d2 + i % m.d2 / s.d2,
    resIndex s (i / m.d2 % s.d0) (i % m.d2 % s.d2)), fun i hi j hj hij => ?_, fun i hi => ?_⟩
  · unfold plainOLE sharesOf
    rw [e]
    simp only [Option.bind_eq_bind, Option.bind_some, ea, eb]
    rfl
  · obtain ⟨i1, i2, i3⟩ := entry_dm hi
    obtain ⟨j1, j2, j3⟩ := entry_dm hj
    rw [Prod.mk.injEq, resIndex_eq, resIndex_eq] at hij
    obtain ⟨e1, e2⟩ := block_inj hs.p0 hs.p2 i2 j2 hij.1 (Nat.eq_of_mul_eq_mul_right hs.p1 hij.2)
    rw [← i3, ← j3, e1, e2]
  · obtain ⟨hr, hcc, i3⟩ := entry_dm hi
    dsimp only
    generalize i / m.d2 = r at *
    generalize i % m.d2 = c at *
    subst i3
    rw [ha r hr c hcc, hb r hr c hcc]
    refine ⟨rfl, ?_⟩
    have hkept : kept m s (r / s.d0 * cdiv m.d2 s.d2 + c / s.d2) (resIndex s (r % s.d0) (c % s.d2)) = true := by
      unfold kept
      dsimp only
      rw [(jobDM (div_lt_cdiv hs.p2 hcc)).1, (jobDM (div_lt_cdiv hs.p2 hcc)).2, List.any_eq_true]
      have r1 := Nat.mod_lt r hs.p0
      have c1 := Nat.mod_lt c hs.p2
      have r2 := Nat.div_add_mod' r s.d0
      have c2 := Nat.div_add_mod' c s.d2
      exact ⟨(r % s.d0, c % s.d2), mem_cells.2 ⟨by omega, by omega⟩, by simp⟩
    simp only [hkept, if_true]
    obtain ⟨V, w, h1, h2, h3⟩ := hc r hr c hcc
    obtain ⟨W, h4, h5⟩ := drops_int C.eok C.dok C.k (hv.dn _ _ _) h1
    rw [← h3]
    refine sharesOf_cast C.k (share_elem C.dok C.dinit _ _ h4 (B := dotErr he m E) ?_ hm)
    calc _ ≤ |(2 : ℚ) ^ hd.c.k * W / hd.c.Q - 2 ^ he.c.k * V / he.c.Q| + |(2 : ℚ) ^ he.c.k * V / he.c.Q - w| := abs_sub_le _ _ _
      _ ≤ _ := by unfold dotErr; linarith

theorem rlweOLE_spec {he hd : Helper} (C : Ctxs he hd) {n : ℕ} {E E' : ℚ} {v : Env he.c hd.c} (hv : EnvOk n E E' v)
    {batch : ℕ} {m s : Dims} (hs : Fits (2 ^ n) s) {l : ℕ} (hl : s.d1 = 2 ^ l)
    (hm : dotErr he m E + 2 * (hd.c.L / hd.c.g) < 1) (x y : ℕ → ℕ → ZMod (2 ^ he.c.k)) :
    ∃ a b, rlweOLE he hd v n batch m s x y = some (a, b) ∧
      DotOk hd he.c.k (batch * (m.d0 * m.d2)) (dotErr he m E + hd.c.L / hd.c.g) v.mask (fun i =>
        mmEntry m (x (i / (m.d0 * m.d2))) (y (i / (m.d0 * m.d2))) (i % (m.d0 * m.d2) / m.d2) (i % (m.d0 * m.d2) % m.d2)) a b := by
  have hln : l ≤ n := by
    have h1 : 2 ^ l ≤ 2 ^ n := by rw [← hl]; exact hs.d1_le.trans (d12_le hs)
    exact (Nat.pow_le_pow_iff_right (by norm_num)).1 h1
  have hdv : s.d1 ∣ 2 ^ n := by rw [hl]; exact pow_dvd_pow 2 hln
  have hlog : Nat.log 2 s.d1 = l := by rw [hl]; exact Nat.log_pow (by norm_num) l
  choose! cts e hc using fun i => products_spec C.eok C.einit C.fits (m := m) hs (x i) (y i)
  set outN := cdiv m.d0 s.d0 * cdiv m.d2 s.d2 with hout
  -- the products of the batch
  obtain ⟨all, eall, hall⟩ : ∃ all, (List.range batch).foldlM (fun (out : ℕ → ℕ → Res he.c) b => do
      let c ← products he (2 ^ n) m s (x b) (y b)
      return fun p => if b * outN ≤ p ∧ p < b * outN + outN then c (p - b * outN) else out p) (fun _ _ => 0) = some all ∧
      ∀ i, i < batch → ∀ p, p < outN → all (i * outN + p) = cts i p := by
    generalize batch = B
    induction B with
    | zero => exact ⟨_, rfl, fun i hi => absurd hi (Nat.not_lt_zero _)⟩
    | succ B ih =>
      obtain ⟨all, e1, h1⟩ := ih
      refine ⟨_, by
        rw [List.range_succ, List.foldlM_append, e1]
        simp only [Option.bind_eq_bind, Option.bind_some, List.foldlM_cons, List.foldlM_nil, e]
        rfl, fun i hi p hp => ?_⟩
      by_cases hiB : i = B
      · subst hiB
        rw [if_pos (by omega), Nat.add_sub_cancel_left]
      · have : i * outN + p < outN * B := block_lt (by omega) hp
        rw [Nat.mul_comm outN] at this
        rw [if_neg (by omega), h1 i (by omega) p hp]
  obtain ⟨pk, epk, hpk⟩ := packAll_spec (outN := outN * batch) hln (hv.gap l hln) all
  obtain ⟨a, ea, ha⟩ := parsePacked_spec (batch := batch) (m := m) hs hdv 0 fun p t => decode hd (v.mask p t)
  obtain ⟨b, eb, hb⟩ := parsePacked_spec (batch := batch) (m := m) hs hdv 0 fun p t =>
    decode hd (v.dn p t (pk p t) - v.mask p t)
  let P : ℕ → ℕ := fun i => i / (m.d0 * m.d2) * outN +
    (i % (m.d0 * m.d2) / m.d2 / s.d0 * cdiv m.d2 s.d2 + i % (m.d0 * m.d2) % m.d2 / s.d2)
  let O : ℕ → ℕ := fun i => i % (m.d0 * m.d2) / m.d2 % s.d0 * s.d2 + i % (m.d0 * m.d2) % m.d2 % s.d2
  have dec : ∀ i, i < batch * (m.d0 * m.d2) → i / (m.d0 * m.d2) < batch ∧ i % (m.d0 * m.d2) < m.d0 * m.d2 := fun i hi =>
    have pos : 0 < m.d0 * m.d2 := Nat.pos_of_ne_zero fun e => by simp [e] at hi
    ⟨(Nat.div_lt_iff_lt_mul pos).2 hi, Nat.mod_lt _ pos⟩
  refine ⟨a, b, ?_, fun i => (P i / s.d1, O i * s.d1 + P i % s.d1), fun i hi j hj hij => ?_, fun i hi => ?_⟩
  · unfold rlweOLE sharesOf
    dsimp only
    rw [← hout, eall]
    rw [Option.bind_eq_bind, Option.bind_some]
    rw [if_pos (by rw [hlog, hl]), hlog, hl, epk]
    simp only [Option.bind_eq_bind, if_true]
    rw [Option.bind_some, ea, Option.bind_some, eb]
    rfl
  · obtain ⟨bi, li⟩ := dec i hi
    obtain ⟨bj, lj⟩ := dec j hj
    obtain ⟨i1, i2, i3⟩ := entry_dm li
    obtain ⟨j1, j2, j3⟩ := entry_dm lj
    rw [Prod.mk.injEq] at hij
    have g := jobDM (l := O i) (Nat.mod_lt (P i) hs.p1)
    have g' := jobDM (l := O j) (Nat.mod_lt (P j) hs.p1)
    rw [← hij.2] at g'
    have eO : O i = O j := g.1.symm.trans g'.1
    have eP : P i = P j := by
      rw [← Nat.div_add_mod' (P i) s.d1, ← Nat.div_add_mod' (P j) s.d1, hij.1, g.2.symm.trans g'.2]
    have q := jobDM (l := i / (m.d0 * m.d2)) (polyIdx_lt hs i1 i2)
    have q' := jobDM (l := j / (m.d0 * m.d2)) (polyIdx_lt hs j1 j2)
    rw [← hout] at q q'
    have eP' := eP
    simp only [P] at eP'
    rw [← eP'] at q'
    obtain ⟨e1, e2⟩ := block_inj hs.p0 hs.p2 i2 j2 (q.2.symm.trans q'.2) eO
    rw [← Nat.div_add_mod' i (m.d0 * m.d2), ← Nat.div_add_mod' j (m.d0 * m.d2), q.1.symm.trans q'.1, ← i3, ← j3, e1, e2]
  · obtain ⟨bi, li⟩ := dec i hi
    obtain ⟨hr, hcc, i3⟩ := entry_dm li
    have i4 := Nat.div_add_mod' i (m.d0 * m.d2)
    simp only [P, O]
    generalize i / (m.d0 * m.d2) = i0 at *
    generalize i % (m.d0 * m.d2) = i5 at *
    generalize i5 / m.d2 = r at *
    generalize i5 % m.d2 = c at *
    subst i3
    subst i4
    rw [ha i0 bi r hr c hcc, hb i0 bi r hr c hcc]
    refine ⟨rfl, ?_⟩
    clear hi
    rename' bi => hi, i0 => i
    have hp := polyIdx_lt hs hr hcc
    rw [← hout] at hp ⊢
    set p := r / s.d0 * cdiv m.d2 s.d2 + c / s.d2 with hpdef
    have hoff : (r % s.d0 * s.d2 + c % s.d2) * 2 ^ l < 2 ^ n := by
      have := resIndex_lt hs (Nat.mod_lt r hs.p0) (Nat.mod_lt c hs.p2)
      rwa [resIndex_eq, hl] at this
    have key := hpk (i * outN + p) (block_lt hi hp) (r % s.d0 * s.d2 + c % s.d2) hoff
    rw [← hl, hall i hi p hp] at key
    obtain ⟨V, w, h1, h2, h3⟩ := hc i r hr c hcc
    rw [resIndex_eq, ← key] at h1
    obtain ⟨W, h4, h5⟩ := drops_int C.eok C.dok C.k (hv.dn _ _ _) h1
    rw [← h3]
    refine sharesOf_cast C.k (share_elem C.dok C.dinit _ _ h4 (B := dotErr he m E) ?_ hm)
    calc _ ≤ |(2 : ℚ) ^ hd.c.k * W / hd.c.Q - 2 ^ he.c.k * V / he.c.Q| + |(2 : ℚ) ^ he.c.k * V / he.c.Q - w| := abs_sub_le _ _ _
      _ ≤ _ := by unfold dotErr; linarith

theorem lweOLE_spec {he hd : Helper} (C : Ctxs he hd) {n : ℕ} {E E' : ℚ} {v : Env he.c hd.c} (hv : EnvOk n E E' v)
    {m s : Dims} (hs : Fits (2 ^ n) s) (h0 : 0 < m.d0 * m.d2) (hle : m.d0 * m.d2 ≤ 2 ^ n)
    (hm : dotErr he m (E + E') + 2 * (hd.c.L / hd.c.g) < 1) (x y : ℕ → ZMod (2 ^ he.c.k)) :
    ∃ a b, lweOLE he hd v n m s x y = some (a, b) ∧ DotOk hd he.c.k (m.d0 * m.d2)
      (dotErr he m (E + E') + hd.c.L / hd.c.g) v.mask (fun i => mmEntry m x y (i / m.d2) (i % m.d2)) a b := by
  obtain ⟨cts, e, hc⟩ := products_spec C.eok C.einit C.fits (m := m) hs x y
  obtain ⟨w, ew, hw⟩ := wrapLWEs_spec (m := m) hs
  have pos2 : 0 < m.d2 := Nat.pos_of_ne_zero fun e => by simp [e] at h0
  have hdm : ∀ i, i < m.d0 * m.d2 → i / m.d2 < m.d0 ∧ i % m.d2 < m.d2 ∧ i / m.d2 * m.d2 + i % m.d2 = i := fun i hi =>
    ⟨(Nat.div_lt_iff_lt_mul pos2).2 hi, Nat.mod_lt _ pos2, Nat.div_add_mod' _ _⟩
  -- the value of an entry after the moduli are lost
  set X : ℕ → Res hd.c := fun i =>
    v.dn (i / m.d2 / s.d0 * cdiv m.d2 s.d2 + i % m.d2 / s.d2) (resIndex s (i / m.d2 % s.d0) (i % m.d2 % s.d2))
      (cts (i / m.d2 / s.d0 * cdiv m.d2 s.d2 + i % m.d2 / s.d2) (resIndex s (i / m.d2 % s.d0) (i % m.d2 % s.d2))) with hX
  set f : ℕ → (ℕ → Res hd.c) × (ℕ → Res hd.c) := fun p =>
    (fun t => v.dn p t (cts p t) - negMul (2 ^ n) (v.c1 p) v.sk t, v.c1 p) with hf
  obtain ⟨pk, epk, hpk⟩ := packAllLWEs_spec h0 hle hv.deg (x := X)
    (cts := fun i => if i < m.d0 * m.d2 then (w i).map fun pt =>
      phase (2 ^ n) v.sk (castLWE (2 ^ n) v.invN (f pt.1) pt.2) else none)
    (by
      intro i hi
      obtain ⟨d1, d2, d3⟩ := hdm i hi
      have := hw _ d1 _ d2
      rw [d3] at this
      simp [hi, this])
    (by
      intro i hi
      obtain ⟨d1, d2, d3⟩ := hdm i hi
      have := hw _ d1 _ d2
      rw [d3] at this
      simp only [hi, if_true, this, Option.map_some, valOf, Option.getD_some]
      rw [castLWE_spec (resIndex_lt hs (Nat.mod_lt _ hs.p0) (Nat.mod_lt _ hs.p2))]
      congr 1
      unfold phase
      simp only [hf, hX]
      ring)
    (by
      intro i hi
      exact if_neg (by omega))
  obtain ⟨a, ea, ha⟩ := parseLWEs_spec h0 hle 0 fun p t => decode hd (v.mask p t)
  obtain ⟨b, eb, hb⟩ := parseLWEs_spec h0 hle 0 fun p t => decode hd (v.ks p t (pk p t) - v.mask p t)
  refine ⟨a, b, ?_, fun i => (0, i * (2 ^ n / bitCeil (m.d0 * m.d2))), fun i hi j hj hij => ?_, fun i hi => ?_⟩
  · unfold lweOLE
    rw [e]
    simp only [Option.bind_eq_bind, Option.bind_some]
    rw [ew, Option.bind_some, epk, Option.bind_some, cdiv_one (h0.trans_le (le_bitCeil_self _)) (bitCeil_le_deg hle), cdiv_one h0 hle, ea,
      Option.bind_some, eb]
    rfl
  · rw [Prod.mk.injEq] at hij
    exact Nat.eq_of_mul_eq_mul_right (Nat.div_pos (bitCeil_le_deg hle) (h0.trans_le (le_bitCeil_self _))) hij.2
  · rw [ha _ hi, hb _ hi, hpk _ hi]
    refine ⟨rfl, ?_⟩
    dsimp only
    obtain ⟨hr, hcc, i3⟩ := entry_dm hi
    generalize i / m.d2 = r at *
    generalize i % m.d2 = c at *
    subst i3
    obtain ⟨V, w', h1, h2, h3⟩ := hc r hr c hcc
    have hXe : X (r * m.d2 + c) = v.dn (r / s.d0 * cdiv m.d2 s.d2 + c / s.d2) (resIndex s (r % s.d0) (c % s.d2))
        (cts (r / s.d0 * cdiv m.d2 s.d2 + c / s.d2) (resIndex s (r % s.d0) (c % s.d2))) := by
      simp only [hX, (jobDM hcc).1, (jobDM hcc).2]
    rw [hXe]
    obtain ⟨W, h4, h5⟩ := drops_int C.eok C.dok C.k (hv.dn _ _ _) h1
    obtain ⟨W', h6, h7⟩ := drops_int C.dok C.dok rfl (hv.ks 0 ((r * m.d2 + c) * (2 ^ n / bitCeil (m.d0 * m.d2))) _) h4
    rw [← h3]
    refine sharesOf_cast C.k (share_elem C.dok C.dinit _ _ h6 (B := dotErr he m (E + E')) ?_ hm)
    calc _ ≤ |(2 : ℚ) ^ hd.c.k * W' / hd.c.Q - 2 ^ he.c.k * V / he.c.Q| + |(2 : ℚ) ^ he.c.k * V / he.c.Q - w'| := abs_sub_le _ _ _
      _ ≤ |(2 : ℚ) ^ hd.c.k * W' / hd.c.Q - 2 ^ hd.c.k * W / hd.c.Q| +
          |(2 : ℚ) ^ hd.c.k * W / hd.c.Q - 2 ^ he.c.k * V / he.c.Q| + |(2 : ℚ) ^ he.c.k * V / he.c.Q - w'| := by
            have := abs_sub_le ((2 : ℚ) ^ hd.c.k * W' / hd.c.Q) (2 ^ hd.c.k * W / hd.c.Q) (2 ^ he.c.k * V / he.c.Q)
            linarith
      _ ≤ _ := by unfold dotErr; linarith

/-! ## The products -/

theorem EnvOk.sum {ce cd : Ctx} {n : ℕ} {E E' : ℚ} {v : Env ce cd} (hv : EnvOk n E E' v) : EnvOk n (E + E') E' v := by
  refine ⟨fun p t a => ?_, hv.ks, hv.gap, hv.deg⟩
  obtain ⟨V, W, h1, h2, h3⟩ := hv.dn p t a
  obtain ⟨V', W', -, -, h4⟩ := hv.ks p t 0
  have := (abs_nonneg _).trans h4
  exact ⟨V, W, h1, h2, h3.trans (by linarith)⟩

/-- Products of blocks that were placed in polynomials, and multiplied, are the blocks of the product.  This is for any functions
`el`, `er` applied to the coefficients that keep 0; the first row of a block, apart from its first entry, is negated before and
after `el`. -/
theorem c78_blocks {V A : Type} [CommRing V] [CommRing A] {N : ℕ} {m s : Dims} (hs : Fits N s) {el er : V → A} (h0 : el 0 = 0)
    (h0' : er 0 = 0) (x y : ℕ → V) : ∃ P Q, encodeLHS N m s x = some P ∧ encodeRHS N m s y = some Q ∧
      ∀ r, r < m.d0 → ∀ c, c < m.d2 →
        compute N m s (fun p i => el (P p i)) (fun p i => er (Q p i)) (r / s.d0 * cdiv m.d2 s.d2 + c / s.d2)
          ((r % s.d0 * s.d2 + c % s.d2) * s.d1) =
        matMul m.d1 (fun r k => if r % s.d0 = 0 ∧ 0 < k % s.d1 then -el (-x (r * m.d1 + k)) else el (x (r * m.d1 + k)))
          (fun k c => er (y (k * m.d2 + c))) r c := by
  obtain ⟨P, Q, e1, e2, h⟩ := compute_spec (m := m) hs h0 h0' (x := x) (y := y)
  refine ⟨P, Q, e1, e2, fun r hr c hc => ?_⟩
  have := h r hr c hc
  rw [resIndex_eq] at this
  exact this

/-- The blocks that are chosen are not empty, fit in a polynomial and are not larger than the matrices, whatever the estimates. -/
theorem c78_subShape (cost : Dims → ℚ) (pack : Bool) {N : ℕ} {m : Dims} (hN : 0 < N) (h0 : 0 < m.d0) (h1 : 0 < m.d1)
    (h2 : 0 < m.d2) : ∃ a b c, subShape cost pack N m = ⟨a, b, c⟩ ∧ 0 < a ∧ 0 < b ∧ 0 < c ∧ a * b * c ≤ N ∧
      a ≤ m.d0 ∧ b ≤ m.d1 ∧ c ≤ m.d2 ∧ (pack = true → ∃ l, b = 2 ^ l) := by
  have g := subShape_good cost pack hN h0 h1 h2
  exact ⟨_, _, _, rfl, g.fits.p0, g.fits.p1, g.fits.p2, by rw [Nat.mul_assoc]; exact g.fits.le, g.l0, g.l1, g.l2, g.pow⟩

/-- `DotOLE` gives both parties shares of the product of their matrices. -/
theorem c78_dotOLE (cost : Bool → Dims → ℚ) (enabled : Bool) {he hd : Helper} (C : Ctxs he hd) {n : ℕ} {E E' : ℚ}
    {v : Env he.c hd.c} (hv : EnvOk n E E' v) {m : Dims} (h0 : 0 < m.d0) (h1 : 0 < m.d1) (h2 : 0 < m.d2)
    (hm : dotErr he m (E + E') + 2 * (hd.c.L / hd.c.g) < 1) (x y : ℕ → ZMod (2 ^ he.c.k)) :
    ∃ a b, dotOLE cost enabled he hd v n m x y = some (a, b) ∧
      DotOk hd he.c.k (m.d0 * m.d2) (dotErr he m (E + E') + hd.c.L / hd.c.g) v.mask
        (fun i => mmEntry m x y (i / m.d2) (i % m.d2)) a b := by
  have hN : 0 < 2 ^ n := by positivity
  unfold dotOLE
  cases hp : choosePacking cost enabled (2 ^ n) m with
  | off => exact plainOLE_spec C hv.sum (subShape_good _ _ hN h0 h1 h2).fits hm x y
  | rlwes =>
    have g := subShape_good (cost true) true hN h0 h1 h2
    obtain ⟨l, hl⟩ := g.pow rfl
    obtain ⟨a, b, e, loc, hloc, h⟩ := rlweOLE_spec C hv.sum (batch := 1) g.fits hl hm (fun _ => x) fun _ => y
    rw [Nat.one_mul] at hloc h
    refine ⟨a, b, e, loc, hloc, fun i hi => ?_⟩
    have := h i hi
    dsimp only at this
    rw [Nat.mod_eq_of_lt hi] at this
    exact this
  | lwes =>
    have g := subShape_good (cost true) true hN h0 h1 h2
    have hle : m.d0 * m.d2 ≤ 2 ^ n := by
      unfold choosePacking at hp
      dsimp only at hp
      split_ifs at hp with a1 a2 a3
      exact (not_lt.1 a3).trans (g.fits.d1_le.trans (d12_le g.fits))
    exact lweOLE_spec C hv g.fits (Nat.mul_pos h0 h2) hle hm x y

/-- `BatchDotOLE` gives both parties shares of the products of their matrices. -/
theorem c78_batchDotOLE (cost : Bool → Dims → ℚ) {he hd : Helper} (C : Ctxs he hd) {n : ℕ} {E E' : ℚ}
    {v : Env he.c hd.c} (hv : EnvOk n E E' v) (batch : ℕ) {m : Dims} (h0 : 0 < m.d0) (h1 : 0 < m.d1) (h2 : 0 < m.d2)
    (hm : dotErr he m E + 2 * (hd.c.L / hd.c.g) < 1) (x y : ℕ → ℕ → ZMod (2 ^ he.c.k)) :
    ∃ a b, batchDotOLE cost he hd v n batch m x y = some (a, b) ∧
      DotOk hd he.c.k (batch * (m.d0 * m.d2)) (dotErr he m E + hd.c.L / hd.c.g) v.mask (fun i =>
        mmEntry m (x (i / (m.d0 * m.d2))) (y (i / (m.d0 * m.d2))) (i % (m.d0 * m.d2) / m.d2) (i % (m.d0 * m.d2) % m.d2)) a b := by
  have g := subShape_good (cost true) true (show 0 < 2 ^ n by positivity) h0 h1 h2
  obtain ⟨l, hl⟩ := g.pow rfl
  exact rlweOLE_spec C hv g.fits hl hm x y

theorem mmEntry_add {k : ℕ} (m : Dims) (x0 x1 y0 y1 : ℕ → ZMod (2 ^ k)) (r c : ℕ) :
    mmEntry m (fun i => x0 i + x1 i) (fun i => y0 i + y1 i) r c =
      mmEntry m x0 y0 r c + mmEntry m x0 y1 r c + mmEntry m x1 y0 r c + mmEntry m x1 y1 r c := by
  unfold mmEntry matMul
  rw [← Finset.sum_add_distrib, ← Finset.sum_add_distrib, ← Finset.sum_add_distrib]
  exact Finset.sum_congr rfl fun k _ => by ring

/-- `MatMulAA` gives shares of the product of two shared matrices, with an error of at most 2 in an entry; there is no error in an
entry if its two masks are not near points where the rounding changes. -/
theorem c78_matMulAA (cost : Bool → Dims → ℚ) (enabled : Bool) {he hd : Helper} (C : Ctxs he hd) {n : ℕ} {E E' : ℚ}
    {v v' : Env he.c hd.c} (hv : EnvOk n E E' v) (hv' : EnvOk n E E' v') {m : Dims} (h0 : 0 < m.d0) (h1 : 0 < m.d1)
    (h2 : 0 < m.d2) (hm : dotErr he m (E + E') + 2 * (hd.c.L / hd.c.g) < 1) (u0 u1 x0 x1 y0 y1 : ℕ → ZMod (2 ^ he.c.k)) :
    ∃ a b, matMulAA cost enabled he hd v v' n m u0 u1 x0 x1 y0 y1 = some (a, b) ∧
      ∃ loc loc' : ℕ → ℕ × ℕ, (∀ i, i < m.d0 * m.d2 → ∀ j, j < m.d0 * m.d2 → loc i = loc j → i = j) ∧
        (∀ i, i < m.d0 * m.d2 → ∀ j, j < m.d0 * m.d2 → loc' i = loc' j → i = j) ∧
        ∀ r, r < m.d0 → ∀ c, c < m.d2 →
          (∃ e : ℤ, |e| ≤ 2 ∧ a (r * m.d2 + c) + b (r * m.d2 + c) =
            mmEntry m (fun i => x0 i + x1 i) (fun i => y0 i + y1 i) r c + e) ∧
          (MaskClear hd.c (dotErr he m (E + E') + hd.c.L / hd.c.g) (v.mask (loc (r * m.d2 + c)).1 (loc (r * m.d2 + c)).2) →
            MaskClear hd.c (dotErr he m (E + E') + hd.c.L / hd.c.g) (v'.mask (loc' (r * m.d2 + c)).1 (loc' (r * m.d2 + c)).2) →
            a (r * m.d2 + c) + b (r * m.d2 + c) = mmEntry m (fun i => x0 i + x1 i) (fun i => y0 i + y1 i) r c) := by
  obtain ⟨a, b, e1, loc, hl, h⟩ := c78_dotOLE cost enabled C hv h0 h1 h2 hm x0 y1
  obtain ⟨a', b', e2, loc', hl', h'⟩ := c78_dotOLE cost enabled C hv' h0 h1 h2 hm x1 y0
  unfold matMulAA
  rw [if_neg (by have := Nat.mul_pos h0 h1; have := Nat.mul_pos h1 h2; omega), e1, e2]
  simp only [Option.bind_eq_bind, Option.bind_some]
  refine ⟨_, _, rfl, loc, loc', hl, hl', fun r hr c hc => ?_⟩
  have hi := idx_lt hr hc
  obtain ⟨-, -, -, ⟨e, he1, he2⟩, hz⟩ := h _ hi
  obtain ⟨-, -, -, ⟨e', he1', he2'⟩, hz'⟩ := h' _ hi
  dsimp only at he2 hz he2' hz'
  rw [(jobDM hc).1, (jobDM hc).2] at he2 hz he2' hz'
  have key : ∀ {s s' : ZMod (2 ^ he.c.k)}, (a (r * m.d2 + c) : ZMod (2 ^ he.c.k)) + b (r * m.d2 + c) = mmEntry m x0 y1 r c + s →
      (a' (r * m.d2 + c) : ZMod (2 ^ he.c.k)) + b' (r * m.d2 + c) = mmEntry m x1 y0 r c + s' →
      ∀ z : Bool, mmEntry m x0 y0 r c + (((if z then (b, a') else (a, b')) : (ℕ → ℕ) × (ℕ → ℕ)).2 (r * m.d2 + c) : ZMod (2 ^ he.c.k)) +
        (((if z then (b, a') else (a, b')) : (ℕ → ℕ) × (ℕ → ℕ)).1 (r * m.d2 + c) : ZMod (2 ^ he.c.k)) +
        (mmEntry m x1 y1 r c + (((if z then (a, b') else (b, a')) : (ℕ → ℕ) × (ℕ → ℕ)).1 (r * m.d2 + c) : ZMod (2 ^ he.c.k)) +
        (((if z then (a, b') else (b, a')) : (ℕ → ℕ) × (ℕ → ℕ)).2 (r * m.d2 + c) : ZMod (2 ^ he.c.k))) =
      mmEntry m (fun i => x0 i + x1 i) (fun i => y0 i + y1 i) r c + (s + s') := by
    intro s s' g g' z
    rw [mmEntry_add]
    cases z
    · simp only [Bool.false_eq_true, if_false]
      linear_combination g + g'
    · simp only [if_true]
      linear_combination g + g'
  rw [(jobDM hc).1, (jobDM hc).2]
  refine ⟨⟨e + e', (abs_add_le _ _).trans (by linarith), ?_⟩, fun c1 c2 => ?_⟩
  · push_cast
    exact key he2 he2' _
  · have := key (s := 0) (s' := 0) (by rw [add_zero]; exact hz c1) (by rw [add_zero]; exact hz' c2)
    simp only [add_zero] at this
    exact this _

/-- FINDING: when the inner extent is 0 the product is 0, but the shares are the contents of memory that was not written. -/
theorem c78_matMulAA_inner_zero (cost : Bool → Dims → ℚ) (enabled : Bool) {he hd : Helper} (hk : 0 < he.c.k)
    (v v' : Env he.c hd.c) (n d0 d2 : ℕ) (h0 : 0 < d0) (h2 : 0 < d2) (x0 x1 y0 y1 : ℕ → ZMod (2 ^ he.c.k)) :
    ∃ u0 u1 a b, matMulAA cost enabled he hd v v' n ⟨d0, 0, d2⟩ u0 u1 x0 x1 y0 y1 = some (a, b) ∧
      a 0 + b 0 ≠ mmEntry ⟨d0, 0, d2⟩ (fun i => x0 i + x1 i) (fun i => y0 i + y1 i) 0 0 := by
  refine ⟨fun _ => 1, fun _ => 0, fun _ => 1, fun _ => 0, ?_, ?_⟩
  · unfold matMulAA
    rw [if_pos (Or.inl (Nat.mul_zero _))]
  · haveI : Fact (1 < 2 ^ he.c.k) := ⟨Nat.one_lt_pow (by omega) (by norm_num)⟩
    unfold mmEntry matMul
    simp

/-! ## The moduli of the program, and noise -/

/-- The moduli for a ring (`cheetah_dot.cc:117-152`): the largest primes of the given sizes that are 1 modulo twice the degree, in
the order of `CoeffModulus::Create`, without the special prime.  `drop` of them are left out after the product (`285-293`). -/
def dotModuli (ring : ℕ) : List ℕ :=
  if ring ≤ 32 then [576460752303415297, 137438822401]
  else if ring ≤ 64 then [576460752303210497, 36028797018652673, 562949952798721]
  else [576460752301391873, 576460752301785089, 576460752302080001, 576460752302473217, 562949952700417]

/-- the context for encoding -/
def dotEcd (ring g : ℕ) : Ctx := ctxOf ring g (dotModuli ring)

/-- the context for decoding -/
def dotDcd (ring g : ℕ) : Ctx := ctxOf ring g (if ring ≤ 32 then (dotModuli ring).take 1
  else if ring ≤ 64 then (dotModuli ring).take 2 else (dotModuli ring).take 3)

theorem ctxOf_ok {k g : ℕ} {qs : List ℕ} (h : ctxTest (ctxOf k 2305843009213554689 qs) = true) (g1 : 1 < g) (g2 : g < 2 ^ 61)
    (g3 : g % 2 = 1) (g4 : ∀ q ∈ qs, Nat.Coprime q g) : CtxOk (ctxOf k g qs) := by
  have H := ctxTest_ok h
  exact ⟨H.lo, H.hi, H.pos, H.one, H.lt, H.odd, H.cop, g1, g2, g3, fun l hl => by
    have hl : l < qs.length := hl
    have : (ctxOf k g qs).q l = qs[l] := by
      show qs.getD l 1 = _
      simp [hl]
    rw [this]
    exact g4 _ (List.getElem_mem _)⟩

/-- For every ring and every gamma that SEAL may choose, both contexts are good, and the errors without noise are at most `2^-16`
for matrices with at most `2^13` columns. -/
theorem c78_moduli {ring g : ℕ} (hr : ring ∈ [32, 64, 128]) (g1 : 2 ^ 60 < g) (g2 : g < 2 ^ 61) (g3 : g % 2 = 1)
    (g4 : ∀ q ∈ dotModuli ring, Nat.Coprime q g) : ∃ he hd, init (dotEcd ring g) = some he ∧ init (dotDcd ring g) = some hd ∧
      Ctxs he hd ∧ he.c.k = ring ∧ ∀ m : Dims, m.d1 ≤ 2 ^ 13 → ∀ E, E + 1 / 2 ^ 16 < 1 →
        dotErr he m E + 2 * (hd.c.L / hd.c.g) < 1 := by
  have t : ∀ ring ∈ [32, 64, 128], ctxTest (dotEcd ring 2305843009213554689) = true ∧
      ctxTest (dotDcd ring 2305843009213554689) = true ∧
      (∀ l, l < (dotEcd ring 2305843009213554689).L → (dotEcd ring 2305843009213554689).Q % 2 ^ ring +
        (dotEcd ring 2305843009213554689).q l ≤ if ring ≤ 64 then 2 ^ 64 else 2 ^ 128) ∧
      2 ^ 17 * (2 ^ 13 * (2 ^ ring * 2 ^ (ring - 1))) ≤ 2 * (dotEcd ring 2305843009213554689).Q * 1 ∧
      (dotDcd ring 2305843009213554689).L ≤ 3 := by
    decide +kernel
  obtain ⟨t1, t2, t3, t4, t5⟩ := t ring hr
  have He : CtxOk (dotEcd ring g) := ctxOf_ok t1 (by omega) g2 g3 g4
  have Hd : CtxOk (dotDcd ring g) := ctxOf_ok t2 (by omega) g2 g3 fun q hq => g4 q (by
    split_ifs at hq <;> exact List.mem_of_mem_take hq)
  obtain ⟨he, ee, Ke⟩ := init_ok He
  obtain ⟨hd, ed, Kd⟩ := init_ok Hd
  have ce : he.c = dotEcd ring g := Ke.ctx
  have cd : hd.c = dotDcd ring g := Kd.ctx
  refine ⟨he, hd, ee, ed, ⟨by rw [ce]; exact He, by rw [ce]; exact ee, by rw [ce]; exact t3, by rw [cd]; exact Hd,
    by rw [cd]; exact ed, by rw [ce, cd]; rfl⟩, by rw [ce]; rfl, fun m hm E hE => ?_⟩
  have hQ : (0 : ℚ) < (dotEcd ring g).Q := by exact_mod_cast Q_pos He
  have a1 : dotErr he m E ≤ 1 / 2 ^ 17 + E := by
    unfold dotErr
    rw [ce]
    have hm' : (m.d1 : ℚ) ≤ 2 ^ 13 := by exact_mod_cast hm
    have t4' : (2 : ℚ) ^ 17 * (2 ^ 13 * (2 ^ ring * 2 ^ (ring - 1))) ≤ 2 * (dotEcd ring g).Q * 1 := by exact_mod_cast t4
    have : (m.d1 : ℚ) * (2 ^ ring * 2 ^ (ring - 1) / (2 * (dotEcd ring g).Q)) ≤ 1 / 2 ^ 17 := by
      rw [← mul_div_assoc, div_le_div_iff₀ (by positivity) (by positivity)]
      calc _ ≤ (2 : ℚ) ^ 13 * (2 ^ ring * 2 ^ (ring - 1)) * 2 ^ 17 := by gcongr
        _ ≤ _ := by linarith
    show (m.d1 : ℚ) * (2 ^ ring * 2 ^ (ring - 1) / (2 * (dotEcd ring g).Q)) + E ≤ _
    linarith
  have a2 : (hd.c.L : ℚ) / hd.c.g ≤ 3 / 2 ^ 60 := by
    rw [cd]
    have h1 : ((dotDcd ring g).L : ℚ) ≤ 3 := by exact_mod_cast t5
    have h2 : (2 : ℚ) ^ 60 ≤ (dotDcd ring g).g := by
      have : 2 ^ 60 ≤ g := by omega
      exact_mod_cast this
    exact div_le_div₀ (by norm_num) h1 (by norm_num) h2
  have a3 : (2 : ℚ) * (3 / 2 ^ 60) < 1 / 2 ^ 17 := by norm_num
  have a4 : (1 : ℚ) / 2 ^ 16 = 1 / 2 ^ 17 + 1 / 2 ^ 17 := by norm_num
  linarith

theorem half_pow {c : Ctx} (H : CtxOk c) (l : ℕ) :
    (2 ^ l : Res c) * (fun i : Fin c.L => ((2 : ℕ) : ZMod (c.q i))⁻¹ ^ l) = 1 := by
  funext i
  have h2 : Nat.Coprime 2 (c.q i) := (Nat.coprime_two_left).2 (Nat.odd_iff.2 (H.odd i i.2))
  have := ZMod.coe_mul_inv_eq_one 2 h2
  show (2 : ZMod (c.q i)) ^ l * ((2 : ℕ) : ZMod (c.q i))⁻¹ ^ l = 1
  rw [← mul_pow]
  have e : (2 : ZMod (c.q i)) = ((2 : ℕ) : ZMod (c.q i)) := by norm_cast
  rw [e, this, one_pow]

/-- There are environments: without noise, only rounding remains when moduli are lost. -/
theorem c78_env {ce cd : Ctx} (He : CtxOk ce) (Hd : CtxOk cd) (hk : cd.k = ce.k) (n : ℕ) (mask : ℕ → ℕ → Res cd) :
    ∃ v : Env ce cd, v.mask = mask ∧ EnvOk n (2 ^ ce.k / (2 * cd.Q)) 0 v := by
  have hQe : (0 : ℚ) < ce.Q := by exact_mod_cast Q_pos He
  have hQd : (0 : ℚ) < cd.Q := by exact_mod_cast Q_pos Hd
  have lift : ∀ {c : Ctx}, CtxOk c → ∀ a : Res c, ∃ V : ℤ, ∀ l, a l = V := fun {c} H a => by
    obtain ⟨R, -, hR⟩ := cmCrt H fun l => if hl : l < c.L then (a ⟨l, hl⟩).val else 0
    refine ⟨R, fun l => ?_⟩
    haveI : NeZero (c.q l) := ⟨by have := H.one l l.2; omega⟩
    have := hR l l.2
    rw [dif_pos l.2] at this
    have h2 := (ZMod.natCast_eq_natCast_iff _ _ _).2 this
    rw [ZMod.natCast_zmod_val] at h2
    push_cast
    first | exact h2 | exact h2.symm
  choose V hV using lift He
  choose U hU using lift Hd
  refine ⟨⟨fun _ _ a l => (near ((cd.Q : ℚ) * V a / ce.Q) : ℤ), fun _ _ a => a, mask, fun _ _ => 0, fun _ _ => 0, fun _ => 0,
    fun g l => ((2 : ℕ) : ZMod (ce.q l))⁻¹ ^ Nat.log 2 g, fun l => ((2 : ℕ) : ZMod (cd.q l))⁻¹ ^ n⟩, rfl,
    fun _ _ a => ⟨V a, _, hV a, fun l => rfl, ?_⟩, fun _ _ a => ⟨U a, U a, hU a, hU a, by simp⟩, fun l _ => ?_, half_pow Hd n⟩
  · have := cmNear_abs ((cd.Q : ℚ) * V a / ce.Q)
    rw [hk]
    have e : (2 : ℚ) ^ ce.k * (near ((cd.Q : ℚ) * V a / ce.Q) : ℤ) / cd.Q - 2 ^ ce.k * V a / ce.Q =
        ((near ((cd.Q : ℚ) * V a / ce.Q) : ℤ) - (cd.Q : ℚ) * V a / ce.Q) * (2 ^ ce.k / cd.Q) := by field_simp
    rw [e, abs_mul, abs_of_pos (show (0 : ℚ) < 2 ^ ce.k / cd.Q by positivity)]
    calc _ ≤ 1 / 2 * ((2 : ℚ) ^ ce.k / cd.Q) := by gcongr
      _ = _ := by field_simp
  · have hl : Nat.log 2 (2 ^ l) = l := Nat.log_pow (by norm_num) l
    show (2 ^ l : Res ce) * (fun i : Fin ce.L => ((2 : ℕ) : ZMod (ce.q i))⁻¹ ^ Nat.log 2 (2 ^ l)) = 1
    rw [hl]
    exact half_pow He l

/-- With the moduli of the program `MatMulAA` is right for matrices with at most `2^13` columns when the noise is below
`1 - 2^-16` in the last place. -/
theorem c78_program {ring g : ℕ} (hr : ring ∈ [32, 64, 128]) (g1 : 2 ^ 60 < g) (g2 : g < 2 ^ 61) (g3 : g % 2 = 1)
    (g4 : ∀ q ∈ dotModuli ring, Nat.Coprime q g) : ∃ he hd, init (dotEcd ring g) = some he ∧ init (dotDcd ring g) = some hd ∧
      he.c.k = ring ∧ ∀ (cost : Bool → Dims → ℚ) (enabled : Bool) (n : ℕ) (E E' : ℚ), E + E' + 1 / 2 ^ 16 < 1 →
      ∀ v v' : Env he.c hd.c, EnvOk n E E' v → EnvOk n E E' v' → ∀ m : Dims, 0 < m.d0 → 0 < m.d1 → m.d1 ≤ 2 ^ 13 → 0 < m.d2 →
      ∀ u0 u1 x0 x1 y0 y1 : ℕ → ZMod (2 ^ he.c.k), ∃ a b, matMulAA cost enabled he hd v v' n m u0 u1 x0 x1 y0 y1 = some (a, b) ∧
        ∀ r, r < m.d0 → ∀ c, c < m.d2 → ∃ e : ℤ, |e| ≤ 2 ∧ a (r * m.d2 + c) + b (r * m.d2 + c) =
          mmEntry m (fun i => x0 i + x1 i) (fun i => y0 i + y1 i) r c + e := by
  obtain ⟨he, hd, e1, e2, C, hk, hm⟩ := c78_moduli hr g1 g2 g3 g4
  refine ⟨he, hd, e1, e2, hk, fun cost enabled n E E' hE v v' hv hv' m h0 h1 h1' h2 u0 u1 x0 x1 y0 y1 => ?_⟩
  obtain ⟨a, b, e, _, _, -, -, h⟩ := c78_matMulAA cost enabled C hv hv' h0 h1 h2 (hm m h1' _ hE) u0 u1 x0 x1 y0 y1
  exact ⟨a, b, e, fun r hr c hc => (h r hr c hc).1⟩

/-! ## Examples -/

/-- the gamma of SEAL is one that `c78_moduli` is about -/
example : ∀ ring ∈ [32, 64, 128], 2 ^ 60 < 2305843009213554689 ∧ 2305843009213554689 < 2 ^ 61 ∧ 2305843009213554689 % 2 = 1 ∧
    ∀ q ∈ dotModuli ring, Nat.gcd q 2305843009213554689 = 1 := by decide +kernel

/-- for 64 bits the hypotheses of the products can be met, for all matrices and masks -/
example : ∃ he hd : Helper, he.c.k = 64 ∧ ∀ mask : ℕ → ℕ → Res hd.c, ∃ v : Env he.c hd.c, v.mask = mask ∧
    ∀ x y : ℕ → ZMod (2 ^ he.c.k), ∃ a b, dotOLE (fun _ s => s.d0 * s.d1) true he hd v 13 ⟨3, 100, 5⟩ x y = some (a, b) ∧
      DotOk hd he.c.k 15 (dotErr he ⟨3, 100, 5⟩ (2 ^ he.c.k / (2 * hd.c.Q) + 0) + hd.c.L / hd.c.g) v.mask
        (fun i => mmEntry ⟨3, 100, 5⟩ x y (i / 5) (i % 5)) a b := by
  have t : (∀ q ∈ dotModuli 64, Nat.gcd q 2305843009213554689 = 1) ∧
      (2 : ℕ) ^ 64 * 2 ≤ (2 * (dotDcd 64 2305843009213554689).Q) := by decide +kernel
  obtain ⟨he, hd, e1, e2, C, hk, hm⟩ := c78_moduli (ring := 64) (g := 2305843009213554689) (by simp) (by norm_num) (by norm_num)
    (by norm_num) t.1
  refine ⟨he, hd, hk, fun mask => ?_⟩
  obtain ⟨v, hv, ok⟩ := c78_env C.eok C.dok C.k 13 mask
  refine ⟨v, hv, fun x y => c78_dotOLE _ true C ok (by norm_num) (by norm_num) (by norm_num) (hm _ (by norm_num) _ ?_) x y⟩
  have cd : hd.c = dotDcd 64 2305843009213554689 := ctx_of_init (by
    have := C.dok
    obtain ⟨h', e, K⟩ := init_ok (c := dotDcd 64 2305843009213554689) (ctxTest_ok (by decide +kernel))
    obtain rfl : hd = h' := by rw [e2] at e; exact Option.some.inj e
    rwa [K.ctx] at this) e2
  have hQ : (0 : ℚ) < hd.c.Q := by exact_mod_cast Q_pos C.dok
  have : (2 : ℚ) ^ he.c.k / (2 * hd.c.Q) ≤ 1 / 2 := by
    rw [hk, cd] at *
    rw [div_le_div_iff₀ (by positivity) (by norm_num)]
    have := t.2
    rw [one_mul]
    exact_mod_cast this
  rw [add_zero]
  calc _ ≤ (1 : ℚ) / 2 + 1 / 2 ^ 16 := by gcongr
    _ < 1 := by norm_num

/-- a 3x5 by 5x3 product in blocks of 2x2 by 2x2: the coefficients are the entries -/
example : (do
    let P ← encodeLHS 8 ⟨3, 5, 3⟩ ⟨2, 2, 2⟩ fun i => (i : ℤ) + 1
    let Q ← encodeRHS 8 ⟨3, 5, 3⟩ ⟨2, 2, 2⟩ fun i => (2 : ℤ) - i
    return [compute 8 ⟨3, 5, 3⟩ ⟨2, 2, 2⟩ P Q 0 0, compute 8 ⟨3, 5, 3⟩ ⟨2, 2, 2⟩ P Q 0 6, compute 8 ⟨3, 5, 3⟩ ⟨2, 2, 2⟩ P Q 3 0]) =
    some [matMul 5 (fun r k => ((r * 5 + k : ℕ) : ℤ) + 1) (fun k c => 2 - ((k * 3 + c : ℕ) : ℤ)) 0 0,
      matMul 5 (fun r k => ((r * 5 + k : ℕ) : ℤ) + 1) (fun k c => 2 - ((k * 3 + c : ℕ) : ℤ)) 1 1,
      matMul 5 (fun r k => ((r * 5 + k : ℕ) : ℤ) + 1) (fun k c => 2 - ((k * 3 + c : ℕ) : ℤ)) 2 2] := by
  decide +kernel

/-- all three packings are chosen for some matrices -/
example : choosePacking (fun _ s => -(s.d1 : ℚ)) true 16 ⟨4, 16, 4⟩ = .lwes ∧
    choosePacking (fun _ s => (s.d1 : ℚ)) true 16 ⟨8, 16, 8⟩ = .rlwes ∧
    choosePacking (fun _ s => (s.d1 : ℚ)) true 16 ⟨2, 16, 2⟩ = .off ∧
    choosePacking (fun _ s => -(s.d1 : ℚ)) false 16 ⟨4, 16, 4⟩ = .off := by decide +kernel

end Spu.Props

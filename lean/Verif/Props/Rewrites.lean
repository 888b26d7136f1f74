/-
C68: the peephole rewrites of the compiler keep the meaning of a program, except for two.
-/
import Mathlib.Tactic.Ring
import Mathlib.Tactic.Linarith
import Mathlib.Tactic.FieldSimp
import Verif.Spec.Rewrites

set_option autoImplicit false

namespace Spu.Props

open Spu.Rewrites Spu.Spec.Rewrites

theorem Rewrites.bind_some_iff {α β : Type} {x : Option α} {f : α → Option β} {b : β} :
    x.bind f = some b ↔ ∃ a, x = some a ∧ f a = some b := Option.bind_eq_some_iff

/-- A value is its type and the number it stands for. -/
theorem Rewrites.val_ext {x y : Val} (h : x.ty = y.ty) (h2 : x.real = y.real) : x = y := by
  cases x with
  | b p => cases y with
    | b q => cases p <;> cases q <;> simp_all [Val.real]
    | i n => simp [Val.ty] at h
    | f n => simp [Val.ty] at h
  | i m => cases y with
    | b q => simp [Val.ty] at h
    | i n => simpa [Val.real] using h2
    | f n => simp [Val.ty] at h
  | f m => cases y with
    | b q => simp [Val.ty] at h
    | i n => simp [Val.ty] at h
    | f n => simpa [Val.real] using h2

/-- The type of a product. -/
def Rewrites.join : Ty → Ty → Ty
  | .flt, _ => .flt
  | _, .flt => .flt
  | .int, _ => .int
  | _, .int => .int
  | .bool, .bool => .bool

/-- `rsqrtOf` replaces a tensor of square roots by their reciprocals. -/
theorem Rewrites.rsqrtOf_eval {Γ : Env} {d r : Ex} (h : rsqrtOf d = some r) {i : ℕ} {v : Val}
    (hv : d.eval Γ i = some v) :
    ∃ s : ℝ, v = .f s ∧ (s ≠ 0 → r.eval Γ i = some (.f (1 / s))) := by
  induction d generalizing r i with
  | un o a ih =>
    cases o <;> simp [rsqrtOf] at h
    subst h
    simp only [Ex.eval, bind_some_iff] at hv
    obtain ⟨x, hx, hv⟩ := hv
    cases x <;> simp [UnOp.eval] at hv
    rename_i x
    refine ⟨Real.sqrt x, hv.2.symm, fun hs => ?_⟩
    have hpos : 0 < x := by
      rcases lt_or_eq_of_le hv.1 with h | h
      · exact h
      · subst h; simp at hs
    simp [Ex.eval, hx, UnOp.eval, hpos]
  | move g a ih =>
    simp only [rsqrtOf, Option.map_eq_some_iff] at h
    obtain ⟨r', hr', rfl⟩ := h
    exact ih hr' hv
  | _ => simp [rsqrtOf] at h

/-- A product is determined by its type and its number. -/
theorem Rewrites.mul_iff (x y z : Val) :
    BinOp.mul.eval x y = some z ↔ z.ty = join x.ty y.ty ∧ z.real = x.real * y.real := by
  have key : ∃ w, BinOp.mul.eval x y = some w ∧ w.ty = join x.ty y.ty ∧
      w.real = x.real * y.real := by
    cases x with
    | b p => cases y with
      | b q => exact ⟨_, rfl, rfl, by cases p <;> cases q <;> simp [Val.real]⟩
      | i n => exact ⟨_, rfl, rfl, by cases p <;> simp [arith, Val.asInt, Val.real]⟩
      | f n => exact ⟨_, rfl, rfl, by cases p <;> simp [arith, Val.asInt, Val.real]⟩
    | i m => cases y with
      | b q => exact ⟨_, rfl, rfl, by cases q <;> simp [arith, Val.asInt, Val.real]⟩
      | i n => exact ⟨_, rfl, rfl, by simp [arith, Val.asInt, Val.real]⟩
      | f n => exact ⟨_, rfl, rfl, by simp [arith, Val.asInt, Val.real]⟩
    | f m => cases y with
      | b q => exact ⟨_, rfl, rfl, by cases q <;> simp [arith, Val.asInt, Val.real]⟩
      | i n => exact ⟨_, rfl, rfl, by simp [arith, Val.asInt, Val.real]⟩
      | f n => exact ⟨_, rfl, rfl, by simp [arith, Val.asInt, Val.real]⟩
  obtain ⟨w, hw, h1, h2⟩ := key
  constructor
  · intro h
    rw [hw] at h
    cases h
    exact ⟨h1, h2⟩
  · rintro ⟨g1, g2⟩
    rw [hw, val_ext (g1.trans h1.symm) (g2.trans h2.symm)]

theorem Rewrites.mul_some (x y : Val) : ∃ z, BinOp.mul.eval x y = some z := by
  cases x <;> cases y <;> exact ⟨_, rfl⟩

theorem Rewrites.join_comm (a b : Ty) : join a b = join b a := by
  cases a <;> cases b <;> rfl

theorem Rewrites.join_assoc (a b c : Ty) : join (join a b) c = join a (join b c) := by
  cases a <;> cases b <;> cases c <;> rfl

theorem Rewrites.mul_comm' {x y z : Val} (h : BinOp.mul.eval x y = some z) :
    BinOp.mul.eval y x = some z := by
  rw [mul_iff] at *
  exact ⟨by rw [h.1, join_comm], by rw [h.2]; ring⟩

theorem Rewrites.mul_assoc' {p q s z w : Val} (h : BinOp.mul.eval p s = some z)
    (h2 : BinOp.mul.eval q z = some w) :
    ∃ y, BinOp.mul.eval p q = some y ∧ BinOp.mul.eval y s = some w := by
  obtain ⟨y, hy⟩ := mul_some p q
  refine ⟨y, hy, ?_⟩
  rw [mul_iff] at *
  refine ⟨?_, by rw [h2.2, h.2, hy.2]; ring⟩
  rw [h2.1, h.1, hy.1, join_assoc, join_comm q.ty, join_assoc, join_comm q.ty]

theorem Rewrites.add_comm' (x y : Val) : BinOp.add.eval x y = BinOp.add.eval y x := by
  cases x <;> cases y <;>
    simp [BinOp.eval, arith, Val.asInt, Val.real, add_comm, Bool.or_comm]

/-- A quotient with a float in it. -/
theorem Rewrites.div_flt {x y z : Val} (h : BinOp.div.eval x y = some z)
    (hf : join x.ty y.ty = .flt) : y.real ≠ 0 ∧ z = .f (x.real / y.real) := by
  by_cases h0 : y.real = 0
  · cases x <;> simp [BinOp.eval, h0] at h
  · refine ⟨h0, ?_⟩
    cases x <;> cases y <;> simp_all [BinOp.eval, join, Val.ty, arith, Val.asInt]

theorem Rewrites.div_flt' {x y : Val} (h0 : y.real ≠ 0) (hf : join x.ty y.ty = .flt) :
    BinOp.div.eval x y = some (.f (x.real / y.real)) := by
  cases x <;> cases y <;> simp_all [BinOp.eval, join, Val.ty, arith, Val.asInt]

theorem Rewrites.ty_flt {v : Val} (h : v.ty = .flt) : ∃ x, v = .f x := by
  cases v <;> simp [Val.ty] at h
  exact ⟨_, rfl⟩

theorem Rewrites.ty_bool {v : Val} (h : v.ty = .bool) : ∃ x, v = .b x := by
  cases v <;> simp [Val.ty] at h
  exact ⟨_, rfl⟩

/-- One pattern at the root. -/
theorem Rewrites.root_keeps {Γ : Env} {T : Types} (hT : TypesRight Γ T) {e e' : Ex}
    (h : Root T e e') : Keeps Γ e e' := by
  obtain ⟨hty, hfit⟩ := hT
  intro i v hv
  cases h with
  | notEqual x y =>
    simp only [Ex.eval, bind_some_iff] at hv ⊢
    obtain ⟨a, ha, b, hb, hv⟩ := hv
    refine ⟨_, ⟨a, ha, b, hb, rfl⟩, ?_⟩
    simp only [BinOp.eval, Option.some.injEq] at hv
    subst hv
    simp [UnOp.eval, relV]
  | greaterEqual x y =>
    simp only [Ex.eval, bind_some_iff] at hv ⊢
    obtain ⟨a, ha, b, hb, hv⟩ := hv
    refine ⟨_, ⟨a, ha, b, hb, rfl⟩, ?_⟩
    simp only [BinOp.eval, Option.some.injEq] at hv
    subst hv
    simp [UnOp.eval, relV, ← not_lt]
  | lessEqual x y =>
    simp only [Ex.eval, bind_some_iff] at hv ⊢
    obtain ⟨a, ha, b, hb, hv⟩ := hv
    refine ⟨_, ⟨a, ha, b, hb, rfl⟩, ?_⟩
    simp only [BinOp.eval, Option.some.injEq] at hv
    subst hv
    simp [UnOp.eval, relV, ← not_lt]
  | max x y =>
    simp only [Ex.eval, bind_some_iff] at hv ⊢
    obtain ⟨a, ha, b, hb, hv⟩ := hv
    refine ⟨_, ⟨a, ha, b, hb, rfl⟩, a, ha, b, hb, ?_⟩
    cases a <;> cases b <;> simp only [BinOp.eval, Option.some.injEq, reduceCtorEq] at hv <;>
      subst hv
    · rename_i p q
      cases p <;> cases q <;> simp [choose, relV, Val.ty, Val.real]
    · rename_i m n
      simp only [choose, relV, Val.ty, Val.real, if_true]
      rcases lt_or_ge n m with h | h
      · simp [h, max_eq_left h.le]
      · simp [not_lt.mpr h, max_eq_right h]
    · rename_i m n
      simp only [choose, relV, Val.ty, Val.real, if_true]
      rcases lt_or_ge n m with h | h
      · simp [h, max_eq_left h.le]
      · simp [not_lt.mpr h, max_eq_right h]
  | min x y =>
    simp only [Ex.eval, bind_some_iff] at hv ⊢
    obtain ⟨a, ha, b, hb, hv⟩ := hv
    refine ⟨_, ⟨a, ha, b, hb, rfl⟩, a, ha, b, hb, ?_⟩
    cases a <;> cases b <;> simp only [BinOp.eval, Option.some.injEq, reduceCtorEq] at hv <;>
      subst hv
    · rename_i p q
      cases p <;> cases q <;> simp [choose, relV, Val.ty, Val.real]
    · rename_i m n
      simp only [choose, relV, Val.ty, Val.real, if_true]
      rcases lt_or_ge m n with h | h
      · simp [h, min_eq_left h.le]
      · simp [not_lt.mpr h, min_eq_right h]
    · rename_i m n
      simp only [choose, relV, Val.ty, Val.real, if_true]
      rcases lt_or_ge m n with h | h
      · simp [h, min_eq_left h.le]
      · simp [not_lt.mpr h, min_eq_right h]
  | sub x y =>
    simp only [Ex.eval, bind_some_iff] at hv ⊢
    obtain ⟨a, ha, b, hb, hv⟩ := hv
    cases a <;> cases b <;> simp only [BinOp.eval, Option.some.injEq, reduceCtorEq] at hv <;>
      subst hv <;> refine ⟨_, ha, _, ⟨_, hb, rfl⟩, ?_⟩ <;>
      simp [BinOp.eval, arith, Val.asInt, Val.real, sub_eq_add_neg]
  | greater x y =>
    simp only [Ex.eval, bind_some_iff] at hv ⊢
    obtain ⟨a, ha, b, hb, hv⟩ := hv
    refine ⟨b, hb, a, ha, ?_⟩
    simpa [BinOp.eval, relV] using hv
  | clamp l x h =>
    simp only [Ex.eval, bind_some_iff] at hv ⊢
    obtain ⟨a, ha, b, hb, c, hc, hv⟩ := hv
    cases a <;> cases b <;> cases c <;> simp only [clampV, Option.some.injEq, reduceCtorEq] at hv <;>
      subst hv <;> refine ⟨_, ⟨_, ha, _, hb, rfl⟩, _, hc, ?_⟩ <;>
      simp [BinOp.eval, max_def, min_def] <;> split_ifs <;> first | rfl | omega | linarith
  | boolAdd x y hx hy =>
    simp only [Ex.eval, bind_some_iff] at hv ⊢
    obtain ⟨a, ha, b, hb, hv⟩ := hv
    obtain ⟨p, rfl⟩ := ty_bool (hty _ _ hx _ _ ha)
    obtain ⟨q, rfl⟩ := ty_bool (hty _ _ hy _ _ hb)
    exact ⟨_, ha, _, hb, hv⟩
  | signbit x w hw hx =>
    simp only [Ex.eval, bind_some_iff] at hv ⊢
    obtain ⟨a, ha, b, hb, hv⟩ := hv
    obtain ⟨n, rfl, h1, h2⟩ := hfit _ _ hx _ _ ha
    cases hb
    refine ⟨_, ⟨_, ⟨_, ha, rfl⟩, rfl⟩, _, rfl, ?_⟩
    have hw' : ((w : ℤ) - 1).toNat = w - 1 := by omega
    have hw0 : (0 : ℤ) ≤ (w : ℤ) - 1 := by omega
    simp only [BinOp.eval, hw', if_pos hw0, Option.some.injEq] at hv
    subst hv
    simp only [convert, BinOp.eval]
    by_cases hn : n < 0
    · have : n / 2 ^ (w - 1) = -1 := by
        rw [Int.ediv_eq_iff_of_pos (by positivity)]
        constructor <;> linarith
      simp [hn, this]
    · have : n / 2 ^ (w - 1) = 0 := Int.ediv_eq_zero_of_lt (by omega) h2
      simp [hn, this]
  | divSqrt y d r hr =>
    simp only [Ex.eval, bind_some_iff] at hv ⊢
    obtain ⟨a, ha, b, hb, hv⟩ := hv
    obtain ⟨s, rfl, hs⟩ := rsqrtOf_eval hr hb
    obtain ⟨h0, rfl⟩ := div_flt hv (by rw [join_comm]; rfl)
    refine ⟨a, ha, _, hs h0, ?_⟩
    rw [mul_iff, join_comm]
    exact ⟨rfl, by simp [Val.real]; ring⟩
  | divMulSqrtL y s k r hy hr =>
    simp only [Ex.eval, bind_some_iff] at hv ⊢
    obtain ⟨a, ha, m, ⟨b, hb, c, hc, hm⟩, hv⟩ := hv
    obtain ⟨x, rfl⟩ := ty_flt (hty _ _ hy _ _ ha)
    obtain ⟨t, rfl, ht⟩ := rsqrtOf_eval hr hb
    obtain ⟨h0, rfl⟩ := div_flt hv rfl
    rw [mul_iff] at hm
    rw [hm.2] at h0 ⊢
    have h1 := mul_ne_zero_iff.mp h0
    refine ⟨_, ⟨_, ha, _, hc, div_flt' h1.2 rfl⟩, _, ht h1.1, ?_⟩
    rw [mul_iff]
    refine ⟨rfl, ?_⟩
    have h2 : t ≠ 0 := h1.1
    have h3 := h1.2
    simp only [Val.real] at *
    field_simp
  | divMulSqrtR y s k r hy hr =>
    simp only [Ex.eval, bind_some_iff] at hv ⊢
    obtain ⟨a, ha, m, ⟨c, hc, b, hb, hm⟩, hv⟩ := hv
    obtain ⟨x, rfl⟩ := ty_flt (hty _ _ hy _ _ ha)
    obtain ⟨t, rfl, ht⟩ := rsqrtOf_eval hr hb
    obtain ⟨h0, rfl⟩ := div_flt hv rfl
    rw [mul_iff] at hm
    rw [hm.2] at h0 ⊢
    have h1 := mul_ne_zero_iff.mp h0
    refine ⟨_, ⟨_, ha, _, hc, div_flt' h1.1 rfl⟩, _, ht h1.2, ?_⟩
    rw [mul_iff]
    refine ⟨rfl, ?_⟩
    have h2 : t ≠ 0 := h1.2
    have h3 := h1.1
    simp only [Val.real] at *
    field_simp
  | divBroadcast x y g hy =>
    simp only [Ex.eval, bind_some_iff] at hv ⊢
    obtain ⟨a, ha, b, hb, hv⟩ := hv
    obtain ⟨z, rfl⟩ := ty_flt (hty _ _ hy _ _ hb)
    obtain ⟨h0, rfl⟩ := div_flt hv (by rw [join_comm]; rfl)
    have h1 : z ≠ 0 := h0
    refine ⟨a, ha, .f (1 / z), ⟨_, hb, by simp [UnOp.eval, h1]⟩, ?_⟩
    rw [mul_iff, join_comm]
    exact ⟨rfl, by simp [Val.real]; ring⟩
  | convertPush t x g => exact hv
  | mulSP p q s s' _ hs he =>
    have key : ∃ a b c d, p.eval Γ i = some a ∧ q.eval Γ i = some b ∧ s.eval Γ i = some c ∧
        BinOp.mul.eval a c = some d ∧ BinOp.mul.eval b d = some v := by
      rcases hs with rfl | rfl <;> rcases he with rfl | rfl <;>
        simp only [Ex.eval, bind_some_iff] at hv
      · obtain ⟨b, hb, d, ⟨a, ha, c, hc, hd⟩, hv⟩ := hv
        exact ⟨a, b, c, d, ha, hb, hc, hd, hv⟩
      · obtain ⟨d, ⟨a, ha, c, hc, hd⟩, b, hb, hv⟩ := hv
        exact ⟨a, b, c, d, ha, hb, hc, hd, mul_comm' hv⟩
      · obtain ⟨b, hb, d, ⟨c, hc, a, ha, hd⟩, hv⟩ := hv
        exact ⟨a, b, c, d, ha, hb, hc, mul_comm' hd, hv⟩
      · obtain ⟨d, ⟨c, hc, a, ha, hd⟩, b, hb, hv⟩ := hv
        exact ⟨a, b, c, d, ha, hb, hc, mul_comm' hd, mul_comm' hv⟩
    obtain ⟨a, b, c, d, ha, hb, hc, hd, hv⟩ := key
    obtain ⟨y, hy, hw⟩ := mul_assoc' hd hv
    simp only [Ex.eval, bind_some_iff]
    exact ⟨y, ⟨a, ha, b, hb, hy⟩, c, hc, hw⟩
  | mixedL x y hx hy =>
    simp only [Ex.eval, bind_some_iff] at hv ⊢
    obtain ⟨_, ⟨a, ha, hc⟩, b, hb, hv⟩ := hv
    obtain ⟨z, rfl⟩ := ty_flt (hty _ _ hy _ _ hb)
    cases hc
    refine ⟨a, ha, _, hb, ?_⟩
    rw [mul_iff] at hv ⊢
    exact ⟨by rw [hv.1, join_comm, join_comm a.ty]; rfl, hv.2⟩
  | mixedR x y hx hy =>
    simp only [Ex.eval, bind_some_iff] at hv ⊢
    obtain ⟨a, ha, _, ⟨b, hb, hc⟩, hv⟩ := hv
    obtain ⟨z, rfl⟩ := ty_flt (hty _ _ hx _ _ ha)
    cases hc
    refine ⟨_, ha, b, hb, ?_⟩
    rw [mul_iff] at hv ⊢
    exact ⟨by rw [hv.1]; rfl, hv.2⟩
  | selectZero p x z hz =>
    simp only [Ex.eval, bind_some_iff] at hv ⊢
    obtain ⟨q, hq, a, ha, b, hb, hv⟩ := hv
    cases hb
    refine ⟨q, hq, a, ha, ?_⟩
    cases q with
    | b q =>
      simp only [choose, Option.ite_none_right_eq_some, Option.some.injEq] at hv
      obtain ⟨hab, rfl⟩ := hv
      rw [mul_iff]
      have hz0 : z.real = 0 := by
        cases z <;> simp_all [isZero, Val.real]
      have hj : join (Val.b q).ty a.ty = a.ty := by cases a <;> rfl
      cases q
      · refine ⟨?_, ?_⟩
        · rw [hj, hab]; rfl
        · rw [show (Val.b false).real = 0 from rfl, zero_mul]; exact hz0
      · simp only [if_true, hj, true_and]; simp [Val.real]
    | i n => simp [choose] at hv
    | f n => simp [choose] at hv
  | preferA p x y =>
    simp only [Ex.eval, bind_some_iff] at hv ⊢
    obtain ⟨q, hq, a, ha, b, hb, hv⟩ := hv
    exact ⟨q, ⟨q, hq, rfl⟩, a, ha, b, hb, hv⟩
  | selectNot p x y hp =>
    simp only [Ex.eval, bind_some_iff] at hv ⊢
    obtain ⟨_, ⟨q, hq, hn⟩, a, ha, b, hb, hv⟩ := hv
    obtain ⟨q, rfl⟩ := ty_bool (hty _ _ hp _ _ hq)
    cases hn
    refine ⟨_, hq, b, hb, a, ha, ?_⟩
    simp only [choose, Option.ite_none_right_eq_some, Option.some.injEq] at hv ⊢
    refine ⟨hv.1.symm, ?_⟩
    rw [← hv.2]
    cases q <;> simp
  | convSame t x hx =>
    simp only [Ex.eval, bind_some_iff] at hv
    obtain ⟨a, ha, hv⟩ := hv
    have := hty _ _ hx _ _ ha
    subst this
    simp only [UnOp.eval, Option.some.injEq] at hv
    rw [ha, ← hv]
    cases a with
    | b p => cases p <;> simp [convert, Val.ty, Val.real]
    | i n => simp [convert, Val.ty]
    | f n => simp [convert, Val.ty, Val.real]
  | moveId g x hg => simpa [Ex.eval, hg] using hv
  | moveMove g h x hg => simpa [Ex.eval, hg] using hv
  | recipLit x =>
    by_cases h0 : x = 0 <;> simp_all [Ex.eval, UnOp.eval]
  | mulLit x y z hz =>
    simp only [Ex.eval, Option.bind_some] at hv ⊢
    rw [← hv, hz]
  | mulComm x y =>
    simp only [Ex.eval, bind_some_iff] at hv ⊢
    obtain ⟨a, ha, b, hb, hv⟩ := hv
    exact ⟨b, hb, a, ha, mul_comm' hv⟩
  | addComm x y =>
    simp only [Ex.eval, bind_some_iff] at hv ⊢
    obtain ⟨a, ha, b, hb, hv⟩ := hv
    exact ⟨b, hb, a, ha, by rw [add_comm', hv]⟩

/-- A pattern anywhere inside. -/
theorem Rewrites.step_keeps {Γ : Env} {R : Ex → Ex → Prop}
    (hR : ∀ e e', R e e' → Keeps Γ e e') {e e' : Ex} (h : Step R e e') : Keeps Γ e e' := by
  induction h with
  | root h => exact hR _ _ h
  | move g h ih => exact fun i v hv => ih (g i) v hv
  | un o h ih =>
    intro i v hv
    simp only [Ex.eval, bind_some_iff] at hv ⊢
    obtain ⟨a, ha, hv⟩ := hv
    exact ⟨a, ih _ _ ha, hv⟩
  | binL o c h ih =>
    intro i v hv
    simp only [Ex.eval, bind_some_iff] at hv ⊢
    obtain ⟨a, ha, hv⟩ := hv
    exact ⟨a, ih _ _ ha, hv⟩
  | binR o c h ih =>
    intro i v hv
    simp only [Ex.eval, bind_some_iff] at hv ⊢
    obtain ⟨a, ha, b, hb, hv⟩ := hv
    exact ⟨a, ha, b, ih _ _ hb, hv⟩
  | select1 x y h ih | clamp1 x y h ih =>
    intro i v hv
    simp only [Ex.eval, bind_some_iff] at hv ⊢
    obtain ⟨a, ha, hv⟩ := hv
    exact ⟨a, ih _ _ ha, hv⟩
  | select2 x y h ih | clamp2 x y h ih =>
    intro i v hv
    simp only [Ex.eval, bind_some_iff] at hv ⊢
    obtain ⟨a, ha, b, hb, hv⟩ := hv
    exact ⟨a, ha, b, ih _ _ hb, hv⟩
  | select3 x y h ih | clamp3 x y h ih =>
    intro i v hv
    simp only [Ex.eval, bind_some_iff] at hv ⊢
    obtain ⟨a, ha, b, hb, c, hc, hv⟩ := hv
    exact ⟨a, ha, b, hb, c, ih _ _ hc, hv⟩

/-- **C68.** However many of the rewrites are applied, in whatever order and wherever in the program,
every element the program defines keeps its value and its type, provided the static types the passes
consult are right about the run. -/
theorem c68_keeps {Γ : Env} {T : Types} (hT : TypesRight Γ T) {e e' : Ex}
    (h : Relation.ReflTransGen (Step (Root T)) e e') : Keeps Γ e e' := by
  induction h with
  | refl => exact fun _ _ hv => hv
  | tail _ h2 ih =>
    exact fun i v hv => Rewrites.step_keeps (fun _ _ => Rewrites.root_keeps hT) h2 i v (ih i v hv)

/-- **C68**: `sqrt(x) + c` with a constant between `0` and the machine epsilon: the replacement is
off by no more than the root of the runtime's epsilon or the constant dropped. -/
theorem c68_sqrt_eps_close {Γ : Env} {m : ℝ} (hε : 0 ≤ Γ.eps) {x : Ex} {c : ℝ} (h0 : 0 ≤ c)
    (hm : c ≤ m) {i : ℕ} {v : Val}
    (hv : (Ex.bin .add (.un .sqrt x) (.lit (.f c))).eval Γ i = some v) :
    ∃ s s' : ℝ, v = .f s ∧ (Ex.un .sqrt (.bin .add x .eps)).eval Γ i = some (.f s') ∧
      -m ≤ s' - s ∧ s' - s ≤ Real.sqrt Γ.eps := by
  simp only [Ex.eval, Rewrites.bind_some_iff] at hv ⊢
  obtain ⟨a, ⟨b, hb, ha⟩, d, hd, hv⟩ := hv
  cases hd
  cases b with
  | f r =>
    simp only [UnOp.eval, Option.ite_none_right_eq_some, Option.some.injEq] at ha
    obtain ⟨hr, rfl⟩ := ha
    simp only [BinOp.eval, arith, Val.asInt, Val.real, Option.some.injEq] at hv
    subst hv
    refine ⟨Real.sqrt r + c, Real.sqrt (r + Γ.eps), rfl,
      ⟨.f (r + Γ.eps), ⟨_, hb, _, rfl, rfl⟩, ?_⟩, ?_, ?_⟩
    · simp [UnOp.eval, add_nonneg hr hε]
    · have := Real.sqrt_le_sqrt (show r ≤ r + Γ.eps by linarith)
      linarith
    · have h1 : Real.sqrt (r + Γ.eps) ≤ Real.sqrt r + Real.sqrt Γ.eps := by
        rw [Real.sqrt_le_left (by positivity)]
        nlinarith [Real.sq_sqrt hr, Real.sq_sqrt hε, Real.sqrt_nonneg r, Real.sqrt_nonneg Γ.eps]
      linarith
  | b p => simp [UnOp.eval] at ha
  | i n => simp [UnOp.eval] at ha

/-- **C68, where it fails**: the test `epsilon >= c` holds for every negative constant too, so
`sqrt(x) - d` loses the `d`: the result is off by as much as one likes. -/
theorem c68_sqrt_eps_wrong {Γ : Env} {m : ℝ} (hm : 0 ≤ m) (hε : 0 ≤ Γ.eps) (d : ℝ) (hd : 0 ≤ d) :
    ∃ (e e' : Ex) (s s' : ℝ), SqrtEps m e e' ∧ e.eval Γ 0 = some (.f s) ∧
      e'.eval Γ 0 = some (.f s') ∧ d ≤ s' - s := by
  refine ⟨_, _, 1 + -d, Real.sqrt (1 + Γ.eps), .mk (.lit (.f 1)) (-d) (by linarith), ?_, ?_, ?_⟩
  · simp [Ex.eval, UnOp.eval, BinOp.eval, arith, Val.asInt, Val.real]
  · have : (0 : ℝ) ≤ 1 + Γ.eps := by linarith
    simp [Ex.eval, UnOp.eval, BinOp.eval, arith, Val.asInt, Val.real, this]
  · have h1 : (1 : ℝ) ≤ Real.sqrt (1 + Γ.eps) := by
      rw [Real.one_le_sqrt]; linarith
    linarith

/-- **C68, where it fails**: when the other operand is an integer the product stays an integer, and
a division that was one of floats becomes one of integers: `7.0 / 2.0` with both operands masked by
a boolean turns from `3.5` into `3`. -/
theorem c68_mixed_int_wrong (Γ : Env) (hΓ : ∀ i, Γ.inp 0 i = .b true) :
    ∃ (T : Types) (e e' : Ex), TypesRight Γ T ∧
      Relation.ReflTransGen (Step (Mixed T)) e e' ∧
      e.eval Γ 0 = some (.f (7 / 2)) ∧ e'.eval Γ 0 = some (.i 3) := by
  refine ⟨⟨fun e t => ∃ n, e = .lit (.i n) ∧ t = .int, fun _ _ => False⟩,
    .bin .div (.bin .mul (.un (.conv .flt) (.lit (.i 7))) (.var 0))
      (.bin .mul (.un (.conv .flt) (.lit (.i 2))) (.var 0)),
    .bin .div (.bin .mul (.lit (.i 7)) (.var 0)) (.bin .mul (.lit (.i 2)) (.var 0)),
    ⟨?_, fun _ _ h => h.elim⟩, ?_, ?_, ?_⟩
  · rintro e t ⟨n, rfl, rfl⟩ i v hv
    cases hv
    rfl
  · refine .tail (.tail .refl (.binL _ _ (.root (.left _ _ (.inl ⟨7, rfl, rfl⟩) ?_))))
      (.binR _ _ (.root (.left _ _ (.inl ⟨2, rfl, rfl⟩) ?_))) <;>
    · intro t z h
      cases h
  · simp [Ex.eval, UnOp.eval, BinOp.eval, arith, Val.asInt, Val.real, hΓ, convert]
  · simp [Ex.eval, BinOp.eval, arith, Val.asInt, Val.real, hΓ]

/-! ### An example -/

/-- `max(x, 0) / sqrt(y)` with `x` an integer: four steps, of four passes. -/
noncomputable def rewriteExample : Ex :=
  .bin .div (.un (.conv .flt) (.bin .max (.var 0) (.lit (.i 0)))) (.un .sqrt (.var 1))

/-- Inputs `x = 3` and `y = 4`. -/
noncomputable def rewriteEnv : Env := ⟨fun k _ => if k = 0 then .i 3 else .f 4, 1 / 2 ^ 18⟩

/-- The types of the program that occur. -/
def rewriteTypes : Types :=
  ⟨fun e t => (e = .un .rsqrt (.var 1) ∧ t = .flt) ∨ (e = .bin .mul (.bin .lt (.lit (.i 0)) (.var 0))
    (.var 0) ∧ t = .int), fun _ _ => False⟩

example : TypesRight rewriteEnv rewriteTypes ∧
    Relation.ReflTransGen (Step (Root rewriteTypes)) rewriteExample
      (.bin .mul (.bin .mul (.bin .lt (.lit (.i 0)) (.var 0)) (.var 0)) (.un .rsqrt (.var 1))) ∧
    rewriteExample.eval rewriteEnv 5 = some (.f (3 / 2)) := by
  refine ⟨⟨?_, fun _ _ h => h.elim⟩, ?_, ?_⟩
  · rintro e t (⟨rfl, rfl⟩ | ⟨rfl, rfl⟩) i v hv
    · simp [Ex.eval, UnOp.eval, rewriteEnv] at hv
      subst hv
      rfl
    · simp [Ex.eval, BinOp.eval, rewriteEnv, arith, Val.asInt, Val.real, relV] at hv
      subst hv
      rfl
  · have h1 : Step (Root rewriteTypes) rewriteExample
        (.bin .div (.un (.conv .flt) (.select (.bin .gt (.var 0) (.lit (.i 0))) (.var 0)
          (.lit (.i 0)))) (.un .sqrt (.var 1))) := .binL _ _ (.un _ (.root (.max _ _)))
    refine .tail (.tail (.tail (.tail (.tail .refl h1)
      (.binL _ _ (.un _ (.select1 _ _ (.root (.greater _ _))))))
      (.binL _ _ (.un _ (.root (.selectZero _ _ _ rfl)))))
      (.root (.divSqrt _ _ _ rfl)))
      (.root (.mixedL _ _ (.inl (.inr ⟨rfl, rfl⟩)) (.inl ⟨rfl, rfl⟩)))
  · have h2 : Real.sqrt 4 = 2 := by
      rw [show (4 : ℝ) = 2 ^ 2 by norm_num]; simp
    simp [rewriteExample, rewriteEnv, Ex.eval, BinOp.eval, UnOp.eval, arith, Val.asInt, Val.real,
      convert, h2]

/-- `sqrt(4) + 2^-25`, with the single precision epsilon `2^-23`. -/
example : ∃ s s' : ℝ, (Ex.un .sqrt (.bin .add (.var 1) .eps)).eval rewriteEnv 0 = some (.f s') ∧
    -(1 / 2 ^ 23) ≤ s' - s ∧ s' - s ≤ Real.sqrt (1 / 2 ^ 18) := by
  have hv : (Ex.bin .add (.un .sqrt (.var 1)) (.lit (.f (1 / 2 ^ 25)))).eval rewriteEnv 0 =
      some (.f (Real.sqrt 4 + 1 / 2 ^ 25)) := by
    simp [Ex.eval, UnOp.eval, BinOp.eval, arith, Val.asInt, Val.real, rewriteEnv]
  obtain ⟨s, s', -, h2, h3, h4⟩ := c68_sqrt_eps_close (m := 1 / 2 ^ 23)
    (show (0 : ℝ) ≤ rewriteEnv.eps by norm_num [rewriteEnv]) (by norm_num) (by norm_num) hv
  exact ⟨s, s', h2, h3, h4⟩

/-- `sqrt(1) - 5` becomes `sqrt(1 + eps)`. -/
example : ∃ (e e' : Ex) (s s' : ℝ), SqrtEps (1 / 2 ^ 23) e e' ∧
    e.eval rewriteEnv 0 = some (.f s) ∧ e'.eval rewriteEnv 0 = some (.f s') ∧ 5 ≤ s' - s :=
  c68_sqrt_eps_wrong (by norm_num) (by norm_num [rewriteEnv]) 5 (by norm_num)

example : ∃ (T : Types) (e e' : Ex), TypesRight ⟨fun _ _ => .b true, 0⟩ T ∧
    Relation.ReflTransGen (Step (Mixed T)) e e' ∧
    e.eval ⟨fun _ _ => .b true, 0⟩ 0 = some (.f (7 / 2)) ∧
    e'.eval ⟨fun _ _ => .b true, 0⟩ 0 = some (.i 3) :=
  c68_mixed_int_wrong _ fun _ => rfl

end Spu.Props

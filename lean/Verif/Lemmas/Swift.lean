import Verif.Spec.Swift
import Mathlib.Tactic.Abel
import Mathlib.Tactic.FinCases
import Mathlib.Tactic.Ring

set_option autoImplicit false

/-! # Replicated shares and the product of SWIFT -/

namespace Spu.Lemmas.Swift
open Spu.Model.Swift Spu.Spec.Swift

/-- a replicated share of `v` -/
def Rep {X : Type} [AddCommGroup X] (x : Rss X) (v : X) : Prop :=
  ∃ s0 s1 s2 : X, x 0 = (s0, s1) ∧ x 1 = (s1, s2) ∧ x 2 = (s2, s0) ∧ v = s0 + s1 + s2

section
variable {X Y Z : Type} [AddCommGroup X] [AddCommGroup Y] [AddCommGroup Z]

theorem Paired.eqs {R : Type} {r0 r1 : Fin 3 → R} (h : Paired r0 r1) : r1 0 = r0 1 ∧ r1 1 = r0 2 ∧ r1 2 = r0 0 :=
  ⟨h 0, h 1, h 2⟩

theorem rep_rand {r0 r1 : Fin 3 → X} (h : Paired r0 r1) : Rep (rssRand r0 r1) (r0 0 + r0 1 + r0 2) := by
  obtain ⟨e0, e1, e2⟩ := Paired.eqs h
  exact ⟨r0 0, r0 1, r0 2, by simp [rssRand, e0], by simp [rssRand, e1], by simp [rssRand, e2], rfl⟩

theorem rep_open {x : Rss X} {v : X} (h : Rep x v) (i : Fin 3) : rssOpen x i = v := by
  obtain ⟨s0, s1, s2, h0, h1, h2, rfl⟩ := h
  have e : (1 : Fin 3) + 1 = 2 := rfl
  have e' : (2 : Fin 3) + 1 = 0 := rfl
  fin_cases i <;> simp [rssOpen, rotate, h0, h1, h2, e, e'] <;> abel

theorem rep_map {x : Rss X} {v : X} (h : Rep x v) (f : X → Z) (hf : ∀ a b, f (a + b) = f a + f b) :
    Rep (rssMap f x) (f v) := by
  obtain ⟨s0, s1, s2, h0, h1, h2, rfl⟩ := h
  exact ⟨f s0, f s1, f s2, by simp [rssMap, h0], by simp [rssMap, h1], by simp [rssMap, h2], by rw [hf, hf]⟩

theorem rep_neg {x : Rss X} {v : X} (h : Rep x v) : Rep (rssMap (- ·) x) (-v) :=
  rep_map h _ (fun a b => by abel)

theorem rep_add {x y : Rss X} {v w : X} (h : Rep x v) (k : Rep y w) : Rep (rssZip (· + ·) x y) (v + w) := by
  obtain ⟨s0, s1, s2, h0, h1, h2, rfl⟩ := h
  obtain ⟨t0, t1, t2, k0, k1, k2, rfl⟩ := k
  exact ⟨s0 + t0, s1 + t1, s2 + t2, by simp [rssZip, h0, k0], by simp [rssZip, h1, k1], by simp [rssZip, h2, k2], by abel⟩

/-- the product of both components by a value all parties know -/
theorem rep_each {x : Rss X} {v : X} (h : Rep x v) (f : Fin 3 → X → Z) (g : X → Z) (hf : ∀ i, f i = g)
    (hg : ∀ a b, g (a + b) = g a + g b) : Rep (fun i => (f i (x i).1, f i (x i).2)) (g v) := by
  simp only [hf]
  exact rep_map h g hg

/-- two-sided additivity of a product -/
structure Bilin (mul : X → Y → Z) : Prop where
  addL : ∀ a b y, mul (a + b) y = mul a y + mul b y
  addR : ∀ x a b, mul x (a + b) = mul x a + mul x b

theorem Bilin.zeroL {mul : X → Y → Z} (h : Bilin mul) (y : Y) : mul 0 y = 0 := by
  have := h.addL 0 0 y
  simpa using this
theorem Bilin.zeroR {mul : X → Y → Z} (h : Bilin mul) (x : X) : mul x 0 = 0 := by
  have := h.addR x 0 0
  simpa using this
theorem Bilin.negL {mul : X → Y → Z} (h : Bilin mul) (x : X) (y : Y) : mul (-x) y = -mul x y := by
  have e := h.addL (-x) x y
  rw [neg_add_cancel, h.zeroL] at e
  exact eq_neg_of_add_eq_zero_left e.symm
theorem Bilin.negR {mul : X → Y → Z} (h : Bilin mul) (x : X) (y : Y) : mul x (-y) = -mul x y := by
  have e := h.addR x (-y) y
  rw [neg_add_cancel, h.zeroR] at e
  exact eq_neg_of_add_eq_zero_left e.symm

/-- the local products and their masks, wherever these come from -/
theorem rep_mul_any {x : Rss X} {y : Rss Y} {v : X} {w : Y} {mul : X → Y → Z} (B : Bilin mul) (h : Rep x v) (k : Rep y w)
    (r0 r1 : Fin 3 → Z) :
    Rep (rssMul mul x y r0 r1) (mul v w + ((r0 0 - r1 0) + (r0 1 - r1 1) + (r0 2 - r1 2))) := by
  obtain ⟨s0, s1, s2, h0, h1, h2, rfl⟩ := h
  obtain ⟨t0, t1, t2, k0, k1, k2, rfl⟩ := k
  have e : (1 : Fin 3) + 1 = 2 := rfl
  have e' : (2 : Fin 3) + 1 = 0 := rfl
  refine ⟨mul s0 t0 + mul s0 t1 + mul s1 t0 + (r0 0 - r1 0), mul s1 t1 + mul s1 t2 + mul s2 t1 + (r0 1 - r1 1),
    mul s2 t2 + mul s2 t0 + mul s0 t2 + (r0 2 - r1 2), ?_, ?_, ?_, ?_⟩
  · simp [rssMul, rotate, h0, h1, k0, k1]
  · simp [rssMul, rotate, h1, h2, k1, k2, e]
  · simp [rssMul, rotate, h0, h2, k0, k2, e']
  · simp only [B.addL, B.addR]
    abel

theorem rep_addP {x : Rss X} {v : X} (h : Rep x v) {p : Fin 3 → X} {q : X} (hp : ∀ i, p i = q) : Rep (rssAddP x p) (v + q) := by
  obtain ⟨s0, s1, s2, h0, h1, h2, rfl⟩ := h
  refine ⟨s0, s1 + q, s2, ?_, ?_, ?_, by abel⟩ <;> simp [rssAddP, h0, h1, h2, hp]
end

/-- what the proof of the product needs of its operations -/
structure Good {X Y Z X' Y' Z' : Type} [AddCommGroup X] [AddCommGroup Y] [AddCommGroup Z] [AddCommGroup X'] [AddCommGroup Y']
    [AddCommGroup Z'] (P : Prod X Y Z X' Y' Z') : Prop where
  bil : Bilin P.mul
  bil' : Bilin P.mul'
  sx : ∀ a b, P.sx (a + b) = P.sx a + P.sx b
  sz : ∀ a b, P.sz (a + b) = P.sz a + P.sz b
  sxz : ∀ a b, P.mul' (P.sx a) b = P.sz (P.mul' a b)
  rx : ∀ a b, P.rx (a + b) = P.rx a + P.rx b
  ry : ∀ a b, P.ry (a + b) = P.ry a + P.ry b
  rz : ∀ a b, P.rz (a + b) = P.rz a + P.rz b
  rm : ∀ a b, P.rz (P.mul' a b) = P.mul (P.rx a) (P.ry b)

/-- the draws of one preprocessing come from the pairwise streams -/
structure PreOk {X' Y' Z' : Type} (D : PreRand X' Y' Z') : Prop where
  a : Paired D.a0 D.a1
  t : Paired D.t0 D.t1
  b : Paired D.b0 D.b1
  c : Paired D.c0 D.c1
  d : Paired D.d0 D.d1

/-- what the six words that should cancel add to a product -/
def excess {Z : Type} [AddCommGroup Z] (r0 r1 : Fin 3 → Z) : Z := (r0 0 - r1 0) + (r0 1 - r1 1) + (r0 2 - r1 2)

theorem excess_paired {Z : Type} [AddCommGroup Z] {r0 r1 : Fin 3 → Z} (h : Paired r0 r1) : excess r0 r1 = 0 := by
  obtain ⟨e0, e1, e2⟩ := Paired.eqs h
  rw [excess, e0, e1, e2]
  abel

/-- The preprocessed product when the two triples may be wrong: the check passes exactly if the challenge
sends the error of the first triple to that of the second, and the result is off by the former. -/
theorem mulPre_any {X Y Z X' Y' Z' : Type} [AddCommGroup X] [AddCommGroup Y] [AddCommGroup Z] [AddCommGroup X'] [AddCommGroup Y']
    [AddCommGroup Z'] [DecidableEq Z'] {P : Prod X Y Z X' Y' Z'} (G : Good P) {D : PreRand X' Y' Z'} (hA : Paired D.a0 D.a1)
    (hT : Paired D.t0 D.t1) (hB : Paired D.b0 D.b1) {x : Rss X} {y : Rss Y} {v : X} {w : Y} (hx : Rep x v) (hy : Rep y w) :
    if P.sz (excess D.c0 D.c1) = excess D.d0 D.d1 then
      ∃ z, mulPre P D x y = some z ∧ Rep z (P.mul v w + P.rz (excess D.c0 D.c1))
    else mulPre P D x y = none := by
  have ha := rep_rand hA
  have ht := rep_rand hT
  have hb := rep_rand hB
  have hc := rep_mul_any G.bil' ha hb D.c0 D.c1
  have hd := rep_mul_any G.bil' ht hb D.d0 D.d1
  set a := D.a0 0 + D.a0 1 + D.a0 2
  set t := D.t0 0 + D.t0 1 + D.t0 2
  set b := D.b0 0 + D.b0 1 + D.b0 2
  have hv := rep_open (rep_add (rep_map ha P.sx G.sx) (rep_neg ht))
  have hvb := rep_each hb (fun i => P.mul' (rssOpen (rssZip (· + ·) (rssMap P.sx (rssRand D.a0 D.a1)) (rssMap (- ·) (rssRand D.t0 D.t1))) i))
    (P.mul' (P.sx a + -t)) (fun i => by rw [hv]) (G.bil'.addR _)
  have hw := rep_open (rep_add (rep_add hvb (rep_neg (rep_map hc P.sz G.sz))) hd)
  have hz : P.mul' (P.sx a + -t) b + -P.sz (P.mul' a b + excess D.c0 D.c1) + (P.mul' t b + excess D.d0 D.d1) =
      excess D.d0 D.d1 - P.sz (excess D.c0 D.c1) := by
    rw [G.bil'.addL, G.bil'.negL, G.sxz, G.sz]
    abel
  have hax := rep_map ha P.rx G.rx
  have hby := rep_map hb P.ry G.ry
  have hcz := rep_map hc P.rz G.rz
  have he := rep_open (rep_add hx (rep_neg hax))
  have hf := rep_open (rep_add hy (rep_neg hby))
  have heb := rep_each hby (fun i => P.mul (rssOpen (rssZip (· + ·) x (rssMap (- ·) (rssMap P.rx (rssRand D.a0 D.a1)))) i))
    (P.mul (v + -P.rx a)) (fun i => by rw [he]) (G.bil.addR _)
  have haf := rep_each hax (fun i a => P.mul a (rssOpen (rssZip (· + ·) y (rssMap (- ·) (rssMap P.ry (rssRand D.b0 D.b1)))) i))
    (fun a => P.mul a (w + -P.ry b)) (fun i => by rw [hf]) (fun p q => G.bil.addL p q _)
  have hef : ∀ i, P.mul (rssOpen (rssZip (· + ·) x (rssMap (- ·) (rssMap P.rx (rssRand D.a0 D.a1)))) i)
      (rssOpen (rssZip (· + ·) y (rssMap (- ·) (rssMap P.ry (rssRand D.b0 D.b1)))) i) = P.mul (v + -P.rx a) (w + -P.ry b) := by
    intro i
    rw [he, hf]
  have hres := rep_addP (rep_add (rep_add hcz heb) haf) hef
  have this : P.mul v w + P.rz (excess D.c0 D.c1) = P.rz (P.mul' a b + excess D.c0 D.c1) + P.mul (v + -P.rx a) (P.ry b)
      + P.mul (P.rx a) (w + -P.ry b) + P.mul (v + -P.rx a) (w + -P.ry b) := by
    rw [G.rz, G.rm]
    simp only [G.bil.addL, G.bil.addR, G.bil.negL, G.bil.negR]
    abel
  have hres' := hres
  change Rep _ (P.rz (P.mul' a b + excess D.c0 D.c1) + P.mul (v + -P.rx a) (P.ry b)
      + P.mul (P.rx a) (w + -P.ry b) + P.mul (v + -P.rx a) (w + -P.ry b)) at hres'
  rw [← this] at hres'
  split_ifs with hcase
  · refine ⟨_, ?_, hres'⟩
    unfold mulPre
    exact if_pos (fun i => (hw i).trans (hz.trans (by rw [hcase, sub_self])))
  · unfold mulPre
    refine if_neg (fun h => hcase ?_)
    have := ((hw 0).symm.trans (h 0)).symm.trans hz
    exact (sub_eq_zero.1 this.symm).symm

theorem mulPre_ok {X Y Z X' Y' Z' : Type} [AddCommGroup X] [AddCommGroup Y] [AddCommGroup Z] [AddCommGroup X'] [AddCommGroup Y']
    [AddCommGroup Z'] [DecidableEq Z'] {P : Prod X Y Z X' Y' Z'} (G : Good P) {D : PreRand X' Y' Z'} (hD : PreOk D)
    {x : Rss X} {y : Rss Y} {v : X} {w : Y} (hx : Rep x v) (hy : Rep y w) :
    ∃ z, mulPre P D x y = some z ∧ Rep z (P.mul v w) := by
  have h := mulPre_any G hD.a hD.t hD.b hx hy
  have z1 : P.sz 0 = 0 := by simpa using G.sz 0 0
  have z2 : P.rz 0 = 0 := by simpa using G.rz 0 0
  rw [excess_paired hD.c, excess_paired hD.d, if_pos z1, z2, add_zero] at h
  exact h

theorem jmp_run {α : Type} (H : HashFn) (s h r : Fin 3) (m : Fin 3 → α) (e : m s = m h) (al : Bool) :
    (jmp H s h r m).run al = some (Function.update m r (m s), al) := by
  simp [jmp, StateT.run, e]

/-- the product: masks are the fresh draws, the value is the product, nothing is reported -/
theorem mulWith_ok {X Y Z : Type} [AddCommGroup X] [AddCommGroup Y] [AddCommGroup Z] (H : HashFn) {mul : X → Y → Z} (B : Bilin mul)
    {pre : Rss X → Rss Y → Option (Rss Z)} (hpre : ∀ x y v w, Rep x v → Rep y w → ∃ z, pre x y = some z ∧ Rep z (mul v w))
    {x : Fin 3 → Shr X} {y : Fin 3 → Shr Y} {v : X} {w : Y} (hx : Shares x v) (hy : Shares y w) {r0 r1 : Fin 3 → Z}
    (hr : Paired r0 r1) (u : Z) (al : Bool) :
    ∃ z, (mulWith H mul pre x y r0 r1 u).run al = some (z, al) ∧
      Layout z (r0 1) (r0 0) (mul v w + r0 1 + r0 0) (r0 2) := by
  obtain ⟨a1, a2, be, ga, lx, rfl⟩ := hx
  obtain ⟨c1, c2, de, gb, ly, rfl⟩ := hy
  obtain ⟨e0, e1, e2⟩ := Paired.eqs hr
  obtain ⟨f, hf, s0, s1, s2, f0, f1, f2, hv⟩ := hpre ![((x 0).b, (x 0).a), ((x 1).a, (x 1).c), ((x 2).c, (x 2).a)]
    ![((y 0).b, (y 0).a), ((y 1).a, (y 1).c), ((y 2).c, (y 2).a)] (a2 + a1 + ga) (c2 + c1 + gb)
    ⟨a2, a1, ga, by simp [lx.p0], by simp [lx.p1], by simp [lx.p2], rfl⟩
    ⟨c2, c1, gb, by simp [ly.p0], by simp [ly.p1], by simp [ly.p2], rfl⟩
  have hv' : s0 + s1 + s2 = mul (a2 + a1 + ga) (c2 + c1 + gb) := hv.symm
  have key : s2 = mul (a2 + a1 + ga) (c2 + c1 + gb) - s0 - s1 := by rw [← hv']; abel
  simp only [mulWith, hf]
  have l : (StateT.lift (some f) : M (Rss Z)) = pure f := rfl
  simp only [l, pure_bind, f0, f1, f2, lx.p0, lx.p1, lx.p2, ly.p0, ly.p1, ly.p2, e0, e1, e2]
  simp only [StateT.run_bind]
  rw [jmp_run]
  rotate_left
  · simp only [Matrix.cons_val_zero, Matrix.cons_val_one]
    simp only [B.negL, B.negR, B.addL, B.addR]
  simp only [Option.bind_eq_bind, Option.bind_some]
  rw [jmp_run]
  rotate_left
  · simp only [Matrix.cons_val_zero, Matrix.cons_val_two, Matrix.head_cons, Matrix.tail_cons]
    simp only [B.negL, B.negR, B.addL, B.addR]
  simp only [Option.bind_some]
  rw [jmp_run]
  rotate_left
  · simp [Function.update, B.negL, B.negR, B.addL, B.addR]
  simp only [Option.bind_some]
  refine ⟨_, rfl, ?_, ?_, ?_⟩
  · simp [Function.update, B.negL, B.negR, B.addL, B.addR, sub_eq_add_neg, key]
    abel
  · simp [Function.update, B.negL, B.negR, B.addL, B.addR, sub_eq_add_neg, key]
    abel
  · simp [Function.update, B.negL, B.negR, B.addL, B.addR, sub_eq_add_neg, key]
    abel

end Spu.Lemmas.Swift

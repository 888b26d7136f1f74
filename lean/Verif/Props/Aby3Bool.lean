import Verif.Spec.Aby3Bool
import Verif.Props.Aby3
import Verif.Props.Semi2kConv

set_option autoImplicit false

/-!
# C26, C27: aby3 boolean kernels are correct gates on replicated shares
-/

namespace Spu.Props
open Spu.Model Spu.Model.Circ Spu.Model.Bits Spu.Model.Aby3 Spu.Model.Aby3.Env Spu.Model.Prg Spu.Spec Spu.Lemmas
open Spu.Model.Semi2k (backBits)
open Spu.Model.Semi2kConv (wordWidth bitrevWord)

theorem backBits_le {nb v : ℕ} (h : backBits nb = some v) : nb ≤ v := by
  unfold backBits at h
  split_ifs at h <;> (cases h; omega)

theorem backBits_pow {nb v : ℕ} (h : backBits nb = some v) : ∃ k, v = 2 ^ k ∧ 3 ≤ k ∧ v ≤ 128 := by
  unfold backBits at h
  split_ifs at h <;> cases h
  · exact ⟨3, by norm_num⟩
  · exact ⟨4, by norm_num⟩
  · exact ⟨5, by norm_num⟩
  · exact ⟨6, by norm_num⟩
  · exact ⟨7, by norm_num⟩

/-- the stored word is not longer than twice what is needed, or 8 bits -/
theorem backBits_tight {nb v : ℕ} (h : backBits nb = some v) : v = 8 ∨ v < 2 * nb := by
  unfold backBits at h
  split_ifs at h <;> (cases h; omega)

/-- nor wider than the ring -/
theorem backBits_ring {nb v w K : ℕ} (hw : w = 2 ^ K) (hK : 3 ≤ K) (hnb : nb ≤ w) (h : backBits nb = some v) :
    v ≤ w := by
  obtain ⟨k, rfl, _, _⟩ := backBits_pow h
  subst hw
  rcases backBits_tight h with h8 | h8
  · rw [h8]; exact (show 8 = 2 ^ 3 by norm_num) ▸ Nat.pow_le_pow_right (by norm_num) hK
  · have : 2 ^ k < 2 ^ (K + 1) := by rw [pow_succ]; omega
    have := (Nat.pow_lt_pow_iff_right (by norm_num)).1 this
    exact Nat.pow_le_pow_right (by norm_num) (by omega)

theorem shiftOk_iff {v k : ℕ} : shiftOk v k = true ↔ k < v ∨ k < 32 := by
  unfold shiftOk; rw [decide_eq_true_eq, lt_max_iff]

section
variable {σ : Type} {Inv : σ → Prop} {E : Env σ} {w : ℕ}

theorem xorAll3 {v : ℕ} (f : Fin 3 → BitVec v) : xorAll f = f 0 ^^^ f 1 ^^^ f 2 := by
  simp [xorAll, List.ofFn_succ, BitVec.xor_assoc]

theorem brep3_bit {a : BShr} {x : BitVec w} (h : BRep3 a x) {i : ℕ} (hi : a.nb ≤ i) : x.getLsbD i = false :=
  bit_of_lt h.lt hi

theorem brep3_map {a : BShr} {x : BitVec w} (ha : BRep3 a x) {v nb : ℕ} {f : BitVec a.v → BitVec v} (lf : XLin f)
    {y : BitVec w} (hf : f (x.setWidth a.v) = y.setWidth v) (hy : y.toNat < 2 ^ nb) (hnb : nb ≤ w)
    (hv : backBits nb = some v) : BRep3 ⟨v, nb, mapSh f a.sh⟩ y where
  repl i := congrArg f (ha.repl i)
  opens := (xorAll_map lf a.sh.fst).trans (by rw [ha.opens, hf])
  lt := hy
  le := hnb
  store := hv

theorem xlin_id {v : ℕ} : XLin (fun x : BitVec v => x) := ⟨rfl, fun _ _ => rfl⟩

theorem setWidth_bit {a b i : ℕ} (x : BitVec a) : (x.setWidth b).getLsbD i = (decide (i < b) && x.getLsbD i) :=
  BitVec.getLsbD_setWidth ..

theorem castBB_ok (h128 : w ≤ 128) {a b : BShr} {x y : BitVec w} (ha : BRep3 a x) (hb : BRep3 b y) :
    Ok Inv (castBB a b : M σ _) (fun c => BRep3 c x ∧ c.nb = max a.nb b.nb) := by
  have h1 := ha.le
  have h2 := hb.le
  obtain ⟨v, hv⟩ := backBits_some (k := max a.nb b.nb) (by omega)
  refine ok_opt hv (Ok.pure ⟨brep3_map ha xlin_setWidth ?_ (lt_of_lt_of_le ha.lt (Nat.pow_le_pow_right (by norm_num)
    (le_max_left _ _))) (by omega) hv, rfl⟩)
  have := backBits_le ha.store
  refine BitVec.eq_of_getLsbD_eq fun i hi => ?_
  rw [setWidth_bit, setWidth_bit, setWidth_bit]
  by_cases h : i < a.v
  · simp [h]
  · rw [brep3_bit ha (by omega)]; simp

theorem xorBB3_ok (h128 : w ≤ 128) {a b : BShr} {x y : BitVec w} (ha : BRep3 a x) (hb : BRep3 b y) :
    Ok Inv (xorBB3 a b : M σ _) (fun c => BRep3 c (x ^^^ y) ∧ c.nb = max a.nb b.nb) := by
  have h1 := ha.le
  have h2 := hb.le
  obtain ⟨v, hv⟩ := backBits_some (k := max a.nb b.nb) (by omega)
  refine ok_opt hv (Ok.pure ⟨⟨fun i => ?_, ?_, xor_lt ha.lt hb.lt, max_le h1 h2, hv⟩, rfl⟩)
  · show BitVec.setWidth v _ = BitVec.setWidth v _
    rw [ha.repl i, hb.repl i]
  · show xorAll (fun i => BitVec.setWidth v (BitVec.setWidth _ (a.sh.fst i) ^^^ BitVec.setWidth _ (b.sh.fst i))) = _
    rw [xorAll_map xlin_setWidth, xorAll_xor, xorAll_map xlin_setWidth, xorAll_map xlin_setWidth, ha.opens, hb.opens]
    have := backBits_le ha.store
    have := backBits_le hb.store
    refine BitVec.eq_of_getLsbD_eq fun i hi => ?_
    simp only [setWidth_bit, BitVec.getLsbD_xor]
    by_cases ha' : a.v ≤ i
    · rw [brep3_bit ha (by omega)]
      by_cases hb' : b.v ≤ i
      · rw [brep3_bit hb (by omega)]; simp
      · simp [hi, show i < b.v by omega]
    · by_cases hb' : b.v ≤ i
      · rw [brep3_bit hb (by omega)]; simp [hi, show i < a.v by omega]
      · simp [hi, show i < a.v by omega, show i < b.v by omega]

theorem andBB3_ok (hE : EnvOk3 E Inv) (h128 : w ≤ 128) {a b : BShr} {x y : BitVec w} (ha : BRep3 a x)
    (hb : BRep3 b y) : Ok Inv (andBB3 E a b) (fun c => BRep3 c (x &&& y) ∧ c.nb = min a.nb b.nb) := by
  have h1 := ha.le
  have h2 := hb.le
  obtain ⟨v, hv⟩ := backBits_some (k := min a.nb b.nb) (by omega)
  refine ok_opt hv (Ok.bind (both_ok hE v) fun r hr => Ok.pure ⟨⟨fun i => rfl, ?_, and_lt ha.lt hb.lt, by
    show min a.nb b.nb ≤ w; omega, hv⟩, rfl⟩)
  have := backBits_le ha.store
  have := backBits_le hb.store
  have oa := ha.opens
  have ob := hb.opens
  obtain ⟨a0, a1, a2⟩ := repl3.1 ha.repl
  obtain ⟨b0, b1, b2⟩ := repl3.1 hb.repl
  have e0 : r.2 0 = r.1 1 := hr 0
  have e1 : r.2 1 = r.1 2 := hr 1
  have e2 : r.2 2 = r.1 0 := hr 2
  rw [xorAll3] at oa ob ⊢
  refine BitVec.eq_of_getLsbD_eq fun i hi => ?_
  have oai := congrArg (fun z => z.getLsbD i) oa
  have obi := congrArg (fun z => z.getLsbD i) ob
  simp only [BitVec.getLsbD_xor, setWidth_bit] at oai obi
  simp only [BitVec.getLsbD_xor, BitVec.getLsbD_and, setWidth_bit, a0, a1, a2, b0, b1, b2, e0, e1, e2]
  have hx : (decide (i < a.v) && x.getLsbD i) = x.getLsbD i := by
    by_cases h : i < a.v
    · simp [h]
    · rw [brep3_bit ha (by omega)]; simp
  have hy : (decide (i < b.v) && y.getLsbD i) = y.getLsbD i := by
    by_cases h : i < b.v
    · simp [h]
    · rw [brep3_bit hb (by omega)]; simp
  rw [hx] at oai
  rw [hy] at obi
  rw [← oai, ← obi]
  have gu : ∀ (p : BitVec a.v), (decide (i < max a.v b.v) && p.getLsbD i) = p.getLsbD i := by
    intro p
    by_cases h : i < a.v
    · simp [h]
    · rw [BitVec.getLsbD_of_ge _ _ (by omega)]; simp
  have gv : ∀ (p : BitVec b.v), (decide (i < max a.v b.v) && p.getLsbD i) = p.getLsbD i := by
    intro p
    by_cases h : i < b.v
    · simp [h]
    · rw [BitVec.getLsbD_of_ge _ _ (by omega)]; simp
  simp only [gu, gv, hi, decide_true, Bool.true_and]
  generalize (a.sh.fst 0).getLsbD i = p0
  generalize (a.sh.fst 1).getLsbD i = p1
  generalize (a.sh.fst 2).getLsbD i = p2
  generalize (b.sh.fst 0).getLsbD i = q0
  generalize (b.sh.fst 1).getLsbD i = q1
  generalize (b.sh.fst 2).getLsbD i = q2
  generalize (r.1 0).getLsbD i = s0
  generalize (r.1 1).getLsbD i = s1
  generalize (r.1 2).getLsbD i = s2
  clear oai obi oa ob a0 a1 a2 b0 b1 b2 e0 e1 e2 gu gv hx hy
  revert p0 p1 p2 q0 q1 q2 s0 s1 s2
  decide

theorem andBP3_ok (h128 : w ≤ 128) {a : BShr} {x : BitVec w} (p : BitVec w) {np : ℕ} (hp : p.toNat < 2 ^ np)
    (ha : BRep3 a x) : Ok Inv (andBP3 a p np : M σ _) (fun c => BRep3 c (x &&& p) ∧ c.nb = min a.nb np) := by
  have h1 := ha.le
  obtain ⟨v, hv⟩ := backBits_some (k := min a.nb np) (by omega)
  refine ok_opt hv (Ok.pure ⟨brep3_map ha (xlin_comp (f := fun l : BitVec a.v => BitVec.setWidth (max a.v w) l &&& BitVec.setWidth (max a.v w) p) xlin_setWidth
    (xlin_comp (g := fun l => l &&& BitVec.setWidth (max a.v w) p) (xlin_and _) xlin_setWidth)) ?_ (and_lt ha.lt hp) (by omega) hv, rfl⟩)
  have := backBits_le ha.store
  refine BitVec.eq_of_getLsbD_eq fun i hi => ?_
  simp only [setWidth_bit, BitVec.getLsbD_and]
  by_cases h : i < a.v
  · simp [h]
  · rw [brep3_bit ha (by omega)]; simp

theorem xorBP3_ok (h128 : w ≤ 128) {a : BShr} {x : BitVec w} (p : BitVec w) {np : ℕ} (hp : p.toNat < 2 ^ np)
    (hnp : np ≤ w) (ha : BRep3 a x) :
    Ok Inv (xorBP3 a p np : M σ _) (fun c => BRep3 c (x ^^^ p) ∧ c.nb = max a.nb np) := by
  have h1 := ha.le
  obtain ⟨v, hv⟩ := backBits_some (k := max a.nb np) (by omega)
  refine ok_opt hv (Ok.pure ⟨⟨fun i => ?_, ?_, xor_lt ha.lt hp, max_le h1 hnp, hv⟩, rfl⟩)
  · show BitVec.setWidth v _ = BitVec.setWidth v _
    rw [ha.repl i]
  · have := backBits_le ha.store
    have oa := ha.opens
    show xorAll (fun i => BitVec.setWidth v (BitVec.setWidth _ (a.sh.fst i) ^^^ BitVec.setWidth _ p)) = _
    rw [xorAll3] at oa ⊢
    refine BitVec.eq_of_getLsbD_eq fun i hi => ?_
    have oai := congrArg (fun z => z.getLsbD i) oa
    simp only [BitVec.getLsbD_xor, setWidth_bit] at oai ⊢
    have hp' : (decide (i < max a.v w) && p.getLsbD i) = p.getLsbD i := by
      by_cases h : i < w
      · simp [h]
      · rw [BitVec.getLsbD_of_ge _ _ (by omega)]; simp
    by_cases h : i < a.v
    · simp only [h, decide_true, Bool.true_and] at oai
      rw [← oai]
      simp only [hp', hi, decide_true, Bool.true_and, show i < max a.v w by omega]
      cases p.getLsbD i <;> cases (a.sh.fst 0).getLsbD i <;> cases (a.sh.fst 1).getLsbD i <;>
        cases (a.sh.fst 2).getLsbD i <;> rfl
    · rw [brep3_bit ha (by omega)]
      simp only [hp', hi, decide_true, Bool.true_and, BitVec.getLsbD_of_ge _ _ (show a.v ≤ i by omega), Bool.and_false]
      cases p.getLsbD i <;> rfl

theorem lshiftV3_ok {K : ℕ} (hwK : w = 2 ^ K) (hK : 3 ≤ K) (h128 : w ≤ 128) {a : BShr} {x : BitVec w} {m k : ℕ}
    (hm : k ≤ m) (hk : ∀ v, backBits (min (a.nb + m) w) = some v → shiftOk v k = true) (ha : BRep3 a x) :
    Ok Inv (lshiftV3 w a m k : M σ _) (fun c => BRep3 c (x <<< k) ∧ c.nb = min (a.nb + m) w) := by
  have h1 := ha.le
  obtain ⟨v, hv⟩ := backBits_some (k := min (a.nb + m) w) (by omega)
  have hv' := backBits_le hv
  have hvw := backBits_ring hwK hK (by omega) hv
  refine ok_opt hv (Ok.enforce (hk v hv) (Ok.pure ⟨brep3_map ha (xlin_comp (f := fun l : BitVec a.v => l.setWidth v)
    (g := fun l : BitVec v => l <<< k) xlin_shl xlin_setWidth) ?_ (lt_of_lt_of_le (shl_lt ha.lt) (Nat.pow_le_pow_right (by norm_num)
      (by show min (a.nb + k) w ≤ min (a.nb + m) w; omega))) (by omega) hv, rfl⟩))
  have := backBits_le ha.store
  refine BitVec.eq_of_getLsbD_eq fun i hi => ?_
  simp only [setWidth_bit, BitVec.getLsbD_shiftLeft, hi, decide_true, Bool.true_and, show i < w by omega]
  by_cases hik : i < k
  · simp [hik]
  · by_cases h : i - k < a.v
    · simp [h, show i - k < v by omega]
    · rw [brep3_bit ha (by omega)]; simp

theorem lshiftB3_ok {K : ℕ} (hwK : w = 2 ^ K) (hK : 3 ≤ K) (h128 : w ≤ 128) {a : BShr} {x : BitVec w} {k : ℕ}
    (hk : ∀ v, backBits (min (a.nb + k) w) = some v → shiftOk v k = true) (ha : BRep3 a x) :
    Ok Inv (lshiftB3 w a k : M σ _) (fun c => BRep3 c (x <<< k) ∧ c.nb = min (a.nb + k) w) :=
  lshiftV3_ok hwK hK h128 le_rfl hk ha

theorem rshiftV3_ok (h128 : w ≤ 128) {a : BShr} {x : BitVec w} {m k : ℕ} (hm : m ≤ k)
    (hk : shiftOk a.v k = true) (ha : BRep3 a x) :
    Ok Inv (rshiftV3 a m k : M σ _) (fun c => BRep3 c (x >>> k) ∧ c.nb = a.nb - m) := by
  have h1 := ha.le
  obtain ⟨v, hv⟩ := backBits_some (k := a.nb - min a.nb m) (by omega)
  refine ok_opt hv (Ok.enforce hk (Ok.pure ⟨brep3_map ha (xlin_comp (f := fun l : BitVec a.v => l >>> k)
    (g := fun l : BitVec a.v => l.setWidth v) xlin_setWidth xlin_shr) ?_ (lt_of_lt_of_le (shr_lt ha.lt) (Nat.pow_le_pow_right (by norm_num)
      (by show a.nb - min a.nb k ≤ a.nb - min a.nb m; omega))) (by omega) hv, by
      show a.nb - min a.nb m = _; omega⟩))
  have := backBits_le ha.store
  refine BitVec.eq_of_getLsbD_eq fun i hi => ?_
  simp only [setWidth_bit, BitVec.getLsbD_ushiftRight, hi, decide_true, Bool.true_and]
  by_cases h : k + i < a.v
  · simp [h]
  · rw [brep3_bit ha (by omega)]; simp

theorem rshiftB3_ok (h128 : w ≤ 128) {a : BShr} {x : BitVec w} {k : ℕ}
    (hk : shiftOk a.v k = true) (ha : BRep3 a x) :
    Ok Inv (rshiftB3 a k : M σ _) (fun c => BRep3 c (x >>> k) ∧ c.nb = a.nb - k) := rshiftV3_ok h128 le_rfl hk ha

/-- `w` bits are stored in `w`-bit words -/
theorem backBits_full {K : ℕ} (hwK : w = 2 ^ K) (hK : 3 ≤ K) (h128 : w ≤ 128) : backBits w = some w := by
  obtain ⟨v, hv⟩ := backBits_some h128
  have h1 := backBits_le hv
  have h2 := backBits_ring hwK hK le_rfl hv
  rw [hv, show v = w by omega]

theorem arshiftB3_ok {K : ℕ} (hwK : w = 2 ^ K) (hK : 3 ≤ K) (h128 : w ≤ 128) {a : BShr} {x : BitVec w} {k : ℕ}
    (hk : shiftOk a.v k = true) (hn : a.nb = w) (ha : BRep3 a x) :
    Ok Inv (arshiftB3 w a k : M σ _) (fun c => BRep3 c (x.sshiftRight k) ∧ c.nb = w) := by
  have hv : a.v = w := by
    have := ha.store
    rw [hn, backBits_full hwK hK h128, Option.some_inj] at this
    exact this.symm
  refine Ok.enforce (by simpa using hn) (Ok.enforce hk (Ok.pure ⟨brep3_map ha xlin_sshr ?_ ?_ ha.le ha.store, hn⟩))
  · generalize a.v = u at hv
    subst hv
    rw [BitVec.setWidth_eq, BitVec.setWidth_eq]
  · rw [hn]; exact BitVec.isLt _

theorem mapShM_lin {v : ℕ} {f : BitVec v → Option (BitVec v)} {g : BitVec v → BitVec v} (h : ∀ x, f x = some (g x))
    (x : Sh (BitVec v)) : mapShM f x = some (mapSh g x) := by
  unfold mapShM
  rw [if_pos ⟨by intro i; rw [h]; rfl, by intro i; rw [h]; rfl⟩]
  have : (fun l => (f l).getD 0) = g := by funext l; rw [h]; rfl
  rw [this]

/-- exchanging levels of a narrow word is what it is of the wide word -/
theorem fold_setWidth {v N : ℕ} (hv : v ≤ w) (h128 : w ≤ 128) (ls : List ℕ)
    (hls : ∀ l ∈ ls, l < 6 ∧ 2 ^ (l + 2) ∣ N ∧ 2 ^ (l + 2) ∣ w ∧ 2 ^ (l + 2) ∣ v) :
    ∀ {x r : BitVec w}, ls.foldlM (fun r l => swapStep l r) x = some r →
      ls.foldlM (fun r l => swapStep l r) (x.setWidth v) = some (r.setWidth v) := by
  induction ls with
  | nil =>
    intro x r h
    simp only [List.foldlM_nil, Option.pure_def, Option.some_inj] at h ⊢
    rw [h]
  | cons l ls ih =>
    intro x r h
    obtain ⟨hl, hN, hw, hv'⟩ := hls l (by simp)
    obtain ⟨r', hr', hb⟩ := swapStep_spec hl hw h128 x
    obtain ⟨q', hq', hc⟩ := swapStep_spec hl hv' (hv.trans h128) (x.setWidth v)
    rw [List.foldlM_cons, hr'] at h
    rw [List.foldlM_cons, hq']
    have e : q' = r'.setWidth v := by
      refine BitVec.eq_of_getLsbD_eq fun i hi => ?_
      rw [hc i hi, setWidth_bit, setWidth_bit, hb i (by omega)]
      simp [hi, swapIdx_lt hv' hi]
    rw [e]
    exact ih (fun l hl => hls l (by simp [hl])) h

theorem levels_three {K m s v : ℕ} (hwK : w = 2 ^ K) (h128 : w ≤ 128) (hm : 2 ^ m ≤ w)
    (hv : backBits (2 ^ m) = some v) :
    ∀ l ∈ deintlLevels s (2 ^ m), l < 6 ∧ 2 ^ (l + 2) ∣ 2 ^ m ∧ 2 ^ (l + 2) ∣ w ∧ 2 ^ (l + 2) ∣ v := by
  obtain ⟨k, rfl, _, h⟩ := backBits_pow hv
  intro l hl
  have h1 := levels_both hwK h128 hm l hl
  have h2 := levels_both (w := 2 ^ k) rfl h (backBits_le hv) l hl
  exact ⟨h1.1, h1.2.1, h1.2.2, h2.2.2⟩

theorem deintl3_ok {K : ℕ} (hwK : w = 2 ^ K) (hK : 3 ≤ K) (h128 : w ≤ 128) {a : BShr} {x r : BitVec w} {s m : ℕ}
    (ha : BRep3 a x) (hnb : a.nb = 2 ^ m) (hr : bitDeintl x s (2 ^ m) = some r) :
    Ok Inv (bitdeintlB3 a s : Spu.Model.Circ.M σ _) (fun c => BRep3 c r ∧ c.nb = a.nb) := by
  have hm : 2 ^ m ≤ w := hnb ▸ ha.le
  have hst : backBits (2 ^ m) = some a.v := hnb ▸ ha.store
  have hl := levels_three (s := s) hwK h128 hm hst
  have hvw := backBits_ring hwK hK hm hst
  obtain ⟨f, hf, lf⟩ := fold_lin (w := a.v) (deintlLevels s (2 ^ m)) fun l h => (hl l h).1
  have hfx := fold_setWidth hvw h128 _ hl hr
  rw [hf, Option.some_inj] at hfx
  refine Ok.enforce (by rw [hnb]; exact singleBit_pow m) (ok_opt (a := mapSh f a.sh)
    (mapShM_lin (fun x => by rw [hnb]; exact hf x) a.sh) (Ok.pure ⟨brep3_map ha lf hfx ?_ ha.le ha.store, rfl⟩))
  rw [hnb]
  exact fold_lt h128 _ (fun l h => ⟨(hl l h).1, (hl l h).2.1, (hl l h).2.2.1⟩) (hnb ▸ ha.lt) hr

theorem intl3_ok {K : ℕ} (hwK : w = 2 ^ K) (hK : 3 ≤ K) (h128 : w ≤ 128) {a : BShr} {x r : BitVec w} {s m : ℕ}
    (ha : BRep3 a x) (hnb : a.nb = 2 ^ m) (hr : bitIntl x s (2 ^ m) = some r) :
    Ok Inv (bitintlB3 a s : Spu.Model.Circ.M σ _) (fun c => BRep3 c r ∧ c.nb = a.nb) := by
  have hm : 2 ^ m ≤ w := hnb ▸ ha.le
  have hst : backBits (2 ^ m) = some a.v := hnb ▸ ha.store
  have hl : ∀ l ∈ intlLevels s (2 ^ m), l < 6 ∧ 2 ^ (l + 2) ∣ 2 ^ m ∧ 2 ^ (l + 2) ∣ w ∧ 2 ^ (l + 2) ∣ a.v :=
    fun l h => levels_three (s := s) hwK h128 hm hst l (List.mem_reverse.1 h)
  have hvw := backBits_ring hwK hK hm hst
  obtain ⟨f, hf, lf⟩ := fold_lin (w := a.v) (intlLevels s (2 ^ m)) fun l h => (hl l h).1
  have hfx := fold_setWidth hvw h128 _ hl hr
  rw [hf, Option.some_inj] at hfx
  refine Ok.enforce (by rw [hnb]; exact singleBit_pow m) (ok_opt (a := mapSh f a.sh)
    (mapShM_lin (fun x => by rw [hnb]; exact hf x) a.sh) (Ok.pure ⟨brep3_map ha lf hfx ?_ ha.le ha.store, rfl⟩))
  rw [hnb]
  exact fold_lt h128 _ (fun l h => ⟨(hl l h).1, (hl l h).2.1, (hl l h).2.2.1⟩) (hnb ▸ ha.lt) hr

/-- The aby3 kernels are correct gates on replicated shares, for every valid randomness. -/
theorem c26_aby3_gates (hE : EnvOk3 E Inv) {K : ℕ} (hwK : w = 2 ^ K) (hK : 3 ≤ K) (h128 : w ≤ 128) :
    Sound (gates3 (w := w) E) Inv BRep3 where
  nb_le h := h.le
  lt h := h.lt
  xor ha hb := xorBB3_ok h128 ha hb
  and ha hb := andBB3_ok hE h128 ha hb
  andP p ha := andBP3_ok h128 p (lt_wordWidth p) ha
  shl {a x k} ha hk h := lshiftB3_ok hwK hK h128 (fun v hv => shiftOk_iff.2 (by
    have h1 := backBits_le hv
    have h2 : a.nb ≤ w := ha.le
    have h3 : 0 < a.nb ∨ k < 32 := h
    omega)) ha
  shr {a x k} ha hk h := rshiftB3_ok h128 (shiftOk_iff.2 (by
    have h1 := backBits_le ha.store
    have h3 : k < a.nb ∨ k < 32 := h
    omega)) ha
  deintl ha hn hr := deintl3_ok hwK hK h128 ha hn hr
  intl ha hn hr := intl3_ok hwK hK h128 ha hn hr

theorem bitrevB3_ok (h128 : w ≤ 128) {start stop : ℕ} (h1 : start ≤ stop) (h2 : stop ≤ w) {a : BShr} {x : BitVec w}
    (hk : ∀ v, backBits (max a.nb stop) = some v → shiftOk v stop = true) (ha : BRep3 a x) :
    Ok Inv (bitrevB3 a start stop : M σ _) (fun c => c.nb = max a.nb stop ∧
      ∃ r : BitVec w, BRep3 c r ∧ ∀ i, i < w → r.getLsbD i = x.getLsbD (revIdx start stop i)) := by
  have hle := ha.le
  obtain ⟨v, hv⟩ := backBits_some (k := max a.nb stop) (by omega)
  have hv' := backBits_le hv
  have hav := backBits_le ha.store
  have hbit : ∀ q, q < v → revIdx start stop q < v := by intro q hq; unfold revIdx; split_ifs <;> omega
  refine Ok.enforce (by simpa using ⟨h1, by omega⟩) (ok_opt hv (Ok.enforce (hk v hv) (Ok.pure ⟨rfl,
    bitrevWord x start stop, brep3_map ha (xlin_comp (f := fun l : BitVec a.v => l.setWidth v)
      (g := fun l : BitVec v => bitrevWord l start stop) (xlin_of_bits (revIdx start stop) fun x i hi =>
        bitrevWord_bit h1 (by omega) x hi) xlin_setWidth) ?_ ?_ (by omega) hv, fun i hi => bitrevWord_bit h1 h2 x hi⟩)))
  · refine BitVec.eq_of_getLsbD_eq fun i hi => ?_
    rw [bitrevWord_bit h1 (by omega) _ hi, setWidth_bit, setWidth_bit, setWidth_bit]
    simp only [hbit i hi, hi, decide_true, Bool.true_and]
    have hx : (decide (revIdx start stop i < a.v) && x.getLsbD (revIdx start stop i)) = x.getLsbD (revIdx start stop i) := by
      by_cases h : revIdx start stop i < a.v
      · simp [h]
      · rw [brep3_bit ha (by omega)]; simp
    rw [hx]
    by_cases hw : i < w
    · rw [bitrevWord_bit h1 h2 _ hw]
    · rw [BitVec.getLsbD_of_ge (bitrevWord x start stop) _ (by omega)]
      have : revIdx start stop i = i := by unfold revIdx; rw [if_neg (by omega)]
      rw [this, BitVec.getLsbD_of_ge _ _ (by omega)]
  · refine lt_of_bits fun i hi => ?_
    by_cases hiw : i < w
    · have e : revIdx start stop i = i := by unfold revIdx; rw [if_neg (by omega)]
      rw [bitrevWord_bit h1 h2 _ hiw, e, bit_of_lt ha.lt (by omega)]
    · exact BitVec.getLsbD_of_ge _ _ (by omega)

theorem p2bK3_ok (h128 : w ≤ 128) {p : BitVec w} {np : ℕ} (hp : p.toNat < 2 ^ np) (hnp : np ≤ w) :
    Ok Inv (p2bK3 p np : M σ _) (fun c => BRep3 c p ∧ c.nb = np) := by
  obtain ⟨v, hv⟩ := backBits_some (k := np) (by omega)
  refine ok_opt hv (Ok.pure ⟨⟨repl3.2 ⟨rfl, rfl, rfl⟩, ?_, hp, hnp, hv⟩, rfl⟩)
  rw [xorAll3]
  simp

theorem randB_ok (hE : EnvOk3 E Inv) {K : ℕ} (hwK : w = 2 ^ K) (hK : 3 ≤ K) :
    Ok Inv (randB w E) (fun c => ∃ b : Bool, BRep3 c (BitVec.ofNat w b.toNat) ∧ c.nb = 1) := by
  have hw : 8 ≤ w := by
    rw [hwK]; exact (show 8 = 2 ^ 3 by norm_num) ▸ Nat.pow_le_pow_right (by norm_num) hK
  refine Ok.bind (both_ok hE w) fun r hr => Ok.pure ⟨(xorAll r.1).getLsbD 0, ⟨fun i => ?_, ?_, ?_, ?_, ?_⟩, rfl⟩
  · show BitVec.setWidth 8 _ = BitVec.setWidth 8 _
    rw [hr i]
  · show xorAll (fun i => BitVec.setWidth 8 (r.1 i &&& 1)) = _
    rw [xorAll_map xlin_setWidth, xorAll_map (xlin_and 1), and_one_bit]
  · show (BitVec.ofNat w _).toNat < 2 ^ 1
    rw [← and_one_bit]
    refine lt_of_bits (n := 1) fun i hi => ?_
    rw [BitVec.getLsbD_and, one_bit]
    simp; omega
  · show 1 ≤ w; omega
  · rfl

/-! ### input and output -/

/-- opening to everybody -/
theorem c27_b2p {a : BShr} {x : BitVec w} (ha : BRep3 a x) (i : Fin 3) : b2p a i = x := by
  obtain ⟨h0, h1, h2⟩ := repl3.1 ha.repl
  have o := ha.opens
  have := backBits_le ha.store
  have key : a.sh.fst i ^^^ a.sh.snd i ^^^ a.sh.snd (i + 1) = x.setWidth a.v := by
    rw [← o, xorAll3]
    fin_cases i
    · show a.sh.fst 0 ^^^ a.sh.snd 0 ^^^ a.sh.snd 1 = _
      rw [h0, h1]
    · show a.sh.fst 1 ^^^ a.sh.snd 1 ^^^ a.sh.snd 2 = _
      rw [h1, h2]; ac_rfl
    · show a.sh.fst 2 ^^^ a.sh.snd 2 ^^^ a.sh.snd 0 = _
      rw [h0, h2]; ac_rfl
  show BitVec.setWidth w (a.sh.fst i ^^^ a.sh.snd i ^^^ a.sh.snd (i + 1)) = x
  rw [key]
  refine BitVec.eq_of_getLsbD_eq fun q hq => ?_
  rw [setWidth_bit, setWidth_bit]
  by_cases h : q < a.v
  · simp [h, hq]
  · rw [brep3_bit ha (by omega)]; simp

/-- opening to one party -/
theorem c27_b2v {a : BShr} {x : BitVec w} (ha : BRep3 a x) (rank i : Fin 3) :
    b2v a rank i = if i = rank then x else 0 := by
  by_cases h : i = rank
  · rw [if_pos h, ← c27_b2p ha i]; simp [b2v, b2p, rotate, h]
  · simp [b2v, h]

/-- reconstruction from the parties' shares -/
theorem c27_from_shares_b {a : BShr} {x : BitVec w} (ha : BRep3 a x) : fromSharesB a = x := by
  have h := c27_b2p ha 0
  obtain ⟨h0, h1, h2⟩ := repl3.1 ha.repl
  rw [← h]
  show _ = BitVec.setWidth w (a.sh.fst 0 ^^^ a.sh.snd 0 ^^^ a.sh.snd 1)
  rw [h0, h1, xlin_setWidth.add, xlin_setWidth.add]
  simp [fromSharesB, List.finRange_succ]

/-- input of one bit: any random bytes give a replicated sharing of the bit -/
theorem c27_make_bit_secret (hw : 1 ≤ w) (b : Bool) (r0 r1 : BitVec 8) :
    BRep3 (makeBitSecret b r0 r1) (BitVec.ofNat w b.toNat) where
  repl i := rfl
  opens := by
    have key : ∀ b : Bool, ∀ r0 r1 : BitVec 8,
        xorAll (makeBitSecret b r0 r1).sh.fst = BitVec.ofNat 8 b.toNat := by
      intro b r0 r1
      rw [xorAll3]
      show (r0 &&& 1) ^^^ (r1 &&& 1) ^^^ ((BitVec.ofNat 8 b.toNat - r0 - r1) &&& 1) = _
      have hs : ∀ x y : BitVec 8, (x - y) &&& 1 = (x &&& 1) ^^^ (y &&& 1) := by
        intro x y
        refine BitVec.eq_of_getLsbD_eq fun i hi => ?_
        rw [BitVec.getLsbD_and, BitVec.getLsbD_xor, BitVec.getLsbD_and, BitVec.getLsbD_and, one_bit]
        by_cases h0 : i = 0
        · subst h0
          have : (x - y).getLsbD 0 = (x.getLsbD 0 ^^ y.getLsbD 0) := by
            have e : x = (x - y) + y := by rw [BitVec.sub_add_cancel]
            have e2 := congrArg (fun z => z.getLsbD 0) e
            simp only [add_bit _ _ (show 0 < 8 by norm_num), cy_zero] at e2
            rw [e2]; cases (x - y).getLsbD 0 <;> cases y.getLsbD 0 <;> rfl
          rw [this]; simp
        · simp [h0]
      rw [hs, hs]
      have : BitVec.ofNat 8 b.toNat &&& 1 = BitVec.ofNat 8 b.toNat := by cases b <;> rfl
      rw [this]
      generalize BitVec.ofNat 8 b.toNat = c
      generalize r0 &&& 1 = p
      generalize r1 &&& 1 = q
      rw [show p ^^^ q ^^^ (c ^^^ p ^^^ q) = c ^^^ (p ^^^ p) ^^^ (q ^^^ q) by ac_rfl]
      simp
    rw [key]
    show BitVec.ofNat 8 b.toNat = BitVec.setWidth 8 (BitVec.ofNat w b.toNat)
    apply BitVec.eq_of_toNat_eq
    rw [BitVec.toNat_setWidth, BitVec.toNat_ofNat, BitVec.toNat_ofNat,
      Nat.mod_eq_of_lt (a := b.toNat) (b := 2 ^ w) (lt_of_le_of_lt (Bool.toNat_le b) (Nat.one_lt_two_pow (by omega)))]
  lt := by
    show (BitVec.ofNat w b.toNat).toNat < 2 ^ 1
    rw [BitVec.toNat_ofNat]
    exact lt_of_le_of_lt (Nat.mod_le _ _) (by cases b <;> decide)
  le := hw
  store := rfl

end

/-! ### C48: shift amounts, C46: ranges -/

section
variable {σ : Type} {Inv : σ → Prop} {w : ℕ}

/-- Left shift by any amount below the ring width, of a value with at least one declared bit; right shift by
any amount below the storage width. -/
theorem c48_shifts_partial {K : ℕ} (hwK : w = 2 ^ K) (hK : 3 ≤ K) (h128 : w ≤ 128) {a : BShr} {x : BitVec w}
    (ha : BRep3 a x) (k : ℕ) (hk : k < w) :
    (0 < a.nb → Ok Inv (lshiftB3 w a k : M σ _) (fun c => BRep3 c (x <<< k) ∧ c.nb = min (a.nb + k) w)) ∧
    (k < max a.v 32 → Ok Inv (rshiftB3 a k : M σ _) (fun c => BRep3 c (x >>> k) ∧ c.nb = a.nb - k)) ∧
    (a.nb = w → Ok Inv (arshiftB3 w a k : M σ _) (fun c => BRep3 c (x.sshiftRight k) ∧ c.nb = w)) := by
  refine ⟨fun h0 => lshiftB3_ok hwK hK h128 (fun v hv => ?_) ha, fun h => rshiftB3_ok h128 (decide_eq_true h) ha, fun hn => ?_⟩
  · have := backBits_le hv
    rw [shiftOk_iff]; left; omega
  · refine arshiftB3_ok hwK hK h128 ?_ hn ha
    have := backBits_le ha.store
    rw [shiftOk_iff]; left; omega

/-- A right shift by an amount below the ring width but not below the storage width is undefined for every
input: a 20-bit value in the 64-bit ring is stored in 32-bit words. -/
theorem c48_rshift_undefined {a : BShr} {k : ℕ} (h : max a.v 32 ≤ k) (s : σ) : rshiftB3 a k s = none := by
  unfold rshiftB3 rshiftV3
  cases hv : backBits (a.nb - min a.nb k) with
  | none => rfl
  | some v =>
    have : shiftOk a.v k = false := decide_eq_false (by omega)
    simp [this, enforce, liftM, monadLift, MonadLift.monadLift, StateT.lift, Bind.bind, StateT.bind, failure,
      StateT.failure, Alternative.failure]

example : ∃ (a : BShr) (x : BitVec 64), BRep3 a x ∧ a.nb = 20 ∧ max a.v 32 ≤ 40 ∧ x = 0xfffff :=
  ⟨⟨32, 20, ⟨![0xfffff, 0, 0], ![0, 0, 0xfffff]⟩⟩, 0xfffff,
    ⟨repl3.2 (by decide +kernel), by decide +kernel, by decide +kernel, by decide +kernel, by decide +kernel⟩,
    rfl, by decide, rfl⟩

/-- a left shift of a value with no declared bits by 32 is undefined -/
theorem c48_lshift_undefined : ∃ a : BShr, BRep3 a (0 : BitVec 64) ∧ a.nb = 0 ∧ lshiftB3 64 a 32 () = none :=
  ⟨⟨8, 0, ⟨fun _ => 0, fun _ => 0⟩⟩,
    ⟨repl3.2 (by decide +kernel), by decide +kernel, by decide +kernel, by decide +kernel, by decide +kernel⟩, rfl, by
    rfl⟩

/-- C46 for the replicated protocol: every range inside the ring, unless it ends at the storage width -/
theorem c46_aby3_partial {K : ℕ} (hwK : w = 2 ^ K) (hK : 3 ≤ K) (h128 : w ≤ 128) {start stop : ℕ} (h1 : start ≤ stop) (h2 : stop < w)
    {a : BShr} {x : BitVec w} (hs : stop < max a.v 32) (ha : BRep3 a x) :
    Ok Inv (bitrevB3 a start stop : M σ _) (fun c => c.nb = max a.nb stop ∧
      ∃ r : BitVec w, BRep3 c r ∧ ∀ i, i < w → r.getLsbD i = x.getLsbD (revIdx start stop i)) := by
  refine bitrevB3_ok h128 h1 h2.le (fun v hv => ?_) ha
  have h3 := backBits_le hv
  have h4 : a.v ≤ v := by
    obtain ⟨m, hm, -⟩ := backBits_pow hv
    obtain ⟨m', hm', -⟩ := backBits_pow ha.store
    rcases backBits_tight ha.store with h | h
    · have := (backBits_pow hv).choose_spec.2.1
      rw [h, (backBits_pow hv).choose_spec.1]
      exact (show 8 = 2 ^ 3 by norm_num) ▸ Nat.pow_le_pow_right (by norm_num) this
    · by_contra hlt
      have h5 : 2 ^ (m + 1) ≤ 2 ^ m' := Nat.pow_le_pow_right (by norm_num) (by
        by_contra hc
        have : 2 ^ m' ≤ 2 ^ m := Nat.pow_le_pow_right (by norm_num) (by omega)
        omega)
      rw [pow_succ] at h5
      omega
  rw [shiftOk_iff]
  rcases lt_max_iff.1 hs with h | h
  · left; omega
  · right; exact h

/-- reversing all the bits of a 64-bit value is undefined -/
theorem c46_aby3_full_undefined {a : BShr} (ha : a.nb ≤ 64) (start : ℕ) (s : σ) : bitrevB3 a start 64 s = none := by
  unfold bitrevB3
  have h : max a.nb 64 = 64 := by omega
  rw [h]
  by_cases hs : start ≤ 64
  · simp [hs, backBits, shiftOk, enforce, liftM, monadLift, MonadLift.monadLift, StateT.lift, Bind.bind, StateT.bind, failure,
      StateT.failure, Alternative.failure, Pure.pure, StateT.pure]
  · simp [hs, enforce, Bind.bind, StateT.bind, failure, StateT.failure, Alternative.failure]

end

/-! ### Examples -/

/-- 6, three bits in bytes -/
def aby3DemoB : BShr := ⟨8, 3, ⟨![5, 1, 2], ![1, 2, 5]⟩⟩
/-- 0x9c, eight bits in bytes -/
def aby3DemoC : BShr := ⟨8, 8, ⟨![0x0f, 0x33, 0xa0], ![0x33, 0xa0, 0x0f]⟩⟩

theorem aby3DemoB_rep : BRep3 aby3DemoB (6 : BitVec 8) :=
  ⟨repl3.2 (by decide +kernel), by decide +kernel, by decide +kernel, by decide +kernel, by decide +kernel⟩
theorem aby3DemoC_rep : BRep3 aby3DemoC (0x9c : BitVec 8) :=
  ⟨repl3.2 (by decide +kernel), by decide +kernel, by decide +kernel, by decide +kernel, by decide +kernel⟩

/-- opening, declared width and storage of a boolean result -/
def showB3 (w : ℕ) {σ : Type} (r : Option (BShr × σ)) : Option (BitVec w × ℕ × ℕ) :=
  r.map fun p => (b2p p.1 1, p.1.nb, p.1.v)

example : showB3 8 (andBB3 aby3DemoEnv aby3DemoB aby3DemoC aby3DemoStart) = some (4, 3, 8) := by decide +kernel
example : showB3 8 (xorBB3 aby3DemoB aby3DemoC aby3DemoStart) = some (0x9a, 8, 8) := by decide +kernel
example : showB3 32 (lshiftB3 32 aby3DemoB 9 aby3DemoStart) = some (0xc00, 12, 16) := by decide +kernel
example : showB3 8 (arshiftB3 8 aby3DemoC 3 aby3DemoStart) = some (0xf3, 8, 8) := by decide +kernel
example : showB3 8 (rshiftB3 aby3DemoC 3 aby3DemoStart) = some (0x13, 5, 8) := by decide +kernel

end Spu.Props

import Verif.Lemmas.Xor
import Verif.Props.Semi2k
import Verif.Props.Bits
import Verif.Props.Adder

set_option autoImplicit false
set_option linter.unusedSectionVars false

/-!
# C26: semi2k boolean kernels are correct gates, declared bit counts are sound
-/

namespace Spu.Props
open Spu.Model.Circ Spu.Model.Bits Spu.Model.Semi2k Spu.Model.Semi2kConv Spu.Spec Spu.Lemmas

section
variable {σ : Type} {n w : ℕ} [NeZero n] {E : Env σ n w} {Inv : σ → Prop}

theorem xor_lt {a b : ℕ} {x y : BitVec w} (hx : x.toNat < 2 ^ a) (hy : y.toNat < 2 ^ b) :
    (x ^^^ y).toNat < 2 ^ max a b := by
  refine lt_of_bits fun i hi => ?_
  rw [BitVec.getLsbD_xor, bit_of_lt hx (by omega), bit_of_lt hy (by omega)]; rfl

theorem and_lt {a b : ℕ} {x y : BitVec w} (hx : x.toNat < 2 ^ a) (hy : y.toNat < 2 ^ b) :
    (x &&& y).toNat < 2 ^ min a b := by
  refine lt_of_bits fun i hi => ?_
  rw [BitVec.getLsbD_and]
  rcases (show a ≤ i ∨ b ≤ i by omega) with h | h
  · rw [bit_of_lt hx h, Bool.false_and]
  · rw [bit_of_lt hy h, Bool.and_false]

theorem shl_lt {a k : ℕ} {x : BitVec w} (hx : x.toNat < 2 ^ a) : (x <<< k).toNat < 2 ^ min (a + k) w := by
  refine lt_of_bits fun i hi => ?_
  by_cases hw : w ≤ i
  · exact BitVec.getLsbD_of_ge _ _ hw
  · rw [BitVec.getLsbD_shiftLeft, bit_of_lt hx (by omega), Bool.and_false]

theorem shr_lt {a k : ℕ} {x : BitVec w} (hx : x.toNat < 2 ^ a) : (x >>> k).toNat < 2 ^ (a - min a k) := by
  refine lt_of_bits fun i hi => ?_
  rw [BitVec.getLsbD_ushiftRight, bit_of_lt hx (by omega)]

theorem swapIdx_ge {N l p : ℕ} (hN : 2 ^ (l + 2) ∣ N) (hp : N ≤ p) : N ≤ swapIdx l p := by
  by_contra hc
  have := swapIdx_lt hN (Nat.lt_of_not_le hc)
  rw [swapIdx_swapIdx] at this
  omega

/-- bits above a block boundary stay clear -/
theorem fold_lt {N : ℕ} (h128 : w ≤ 128) (ls : List ℕ) (hls : ∀ l ∈ ls, l < 6 ∧ 2 ^ (l + 2) ∣ N ∧ 2 ^ (l + 2) ∣ w) :
    ∀ {x r : BitVec w}, x.toNat < 2 ^ N → ls.foldlM (fun r l => swapStep l r) x = some r → r.toNat < 2 ^ N := by
  induction ls with
  | nil =>
    intro x r hx h
    simp only [List.foldlM_nil, Option.pure_def, Option.some_inj] at h
    exact h ▸ hx
  | cons l ls ih =>
    intro x r hx h
    obtain ⟨hl, hN, hw⟩ := hls l (by simp)
    obtain ⟨r', hr', hb⟩ := swapStep_spec hl hw h128 x
    rw [List.foldlM_cons, hr'] at h
    refine ih (fun l hl => hls l (by simp [hl])) (lt_of_bits fun i hi => ?_) h
    by_cases hiw : i < w
    · rw [hb i hiw, bit_of_lt hx (swapIdx_ge hN hi)]
    · exact BitVec.getLsbD_of_ge _ _ (by omega)

theorem perParty_lin {f : BitVec w → Option (BitVec w)} {g : BitVec w → BitVec w} (h : ∀ x, f x = some (g x))
    (x : Fin n → BitVec w) : perParty f x = some (fun i => g (x i)) := by
  unfold perParty
  rw [if_pos (by intro i; rw [h]; rfl)]
  congr 1
  funext i
  rw [h]; rfl

theorem ok_opt {α β : Type} {o : Option α} {a : α} (h : o = some a) {f : α → M σ β} {Q : β → Prop}
    (hf : Ok Inv (f a) Q) : Ok Inv ((liftM o : M σ α) >>= f) Q := by
  subst h
  exact Ok.bind (P := fun b => b = a) (fun s hs => ⟨a, s, rfl, hs, rfl⟩) (fun b hb => by rw [hb]; exact hf)

theorem xorBBK_ok {a b : BShr n w} {x y : BitVec w} (ha : BRep a x) (hb : BRep b y) :
    Ok Inv (xorBBK a b : M σ _) (fun c => BRep c (x ^^^ y) ∧ c.nb = max a.nb b.nb) := by
  refine Ok.pure ⟨⟨?_, xor_lt ha.2.1 hb.2.1, max_le ha.2.2 hb.2.2⟩, rfl⟩
  show xorAll (fun i => a.sh i ^^^ b.sh i) = _
  rw [xorAll_xor, ha.1, hb.1]

theorem andBBK_ok (hE : EnvOk E Inv) (h128 : w ≤ 128) {a b : BShr n w} {x y : BitVec w} (ha : BRep a x)
    (hb : BRep b y) : Ok Inv (andBBK E a b) (fun c => BRep c (x &&& y) ∧ c.nb = min a.nb b.nb) := by
  have h1 := ha.2.2
  have h2 := hb.2.2
  obtain ⟨v, hv, hand⟩ := c20_and_declared a.sh b.sh (nx := a.nb) (ny := b.nb) (by rw [ha.1]; exact ha.2.1)
    (by rw [hb.1]; exact hb.2.1) (by omega)
  refine ok_opt hv (Ok.bind (hE.andT v) fun ⟨p, q, r⟩ ht => Ok.pure ⟨⟨?_, and_lt ha.2.1 hb.2.1, by
    show min a.nb b.nb ≤ w; omega⟩, rfl⟩)
  have := (hand p q r ht).1
  rw [ha.1, hb.1] at this
  exact this

theorem andBPK_ok {a : BShr n w} {x : BitVec w} (p : BitVec w) {np : ℕ} (hp : p.toNat < 2 ^ np) (ha : BRep a x) :
    Ok Inv (andBPK a p np : M σ _) (fun c => BRep c (x &&& p) ∧ c.nb = min a.nb np) := by
  refine Ok.pure ⟨⟨?_, and_lt ha.2.1 hp, le_trans (min_le_left _ _) ha.2.2⟩, rfl⟩
  exact (xorAll_map (xlin_and p) a.sh).trans (by rw [ha.1])

theorem xorBPK_ok {a : BShr n w} {x : BitVec w} (p : BitVec w) {np : ℕ} (hp : p.toNat < 2 ^ np) (hnp : np ≤ w)
    (ha : BRep a x) : Ok Inv (xorBPK a p np : M σ _) (fun c => BRep c (x ^^^ p) ∧ c.nb = max a.nb np) := by
  refine Ok.pure ⟨⟨?_, xor_lt ha.2.1 hp, max_le ha.2.2 hnp⟩, rfl⟩
  show xorAll (fun i => if i = 0 then a.sh i ^^^ (fun _ => p) i else a.sh i) = _
  rw [xorAll_ite, ha.1]

theorem lshiftBV_ok {a : BShr n w} {x : BitVec w} {m k : ℕ} (hm : k ≤ m) (hk : k < w) (ha : BRep a x) :
    Ok Inv (lshiftBV a m k : M σ _) (fun c => BRep c (x <<< k) ∧ c.nb = min (a.nb + m) w) :=
  Ok.enforce (by simpa using hk) (Ok.pure ⟨⟨(xorAll_map xlin_shl a.sh).trans (by rw [ha.1]),
    lt_of_lt_of_le (shl_lt ha.2.1) (Nat.pow_le_pow_right (by norm_num) (by show min (a.nb + k) w ≤ min (a.nb + m) w; omega)),
    min_le_right _ _⟩, rfl⟩)

theorem lshiftBK_ok {a : BShr n w} {x : BitVec w} {k : ℕ} (hk : k < w) (ha : BRep a x) :
    Ok Inv (lshiftBK a k : M σ _) (fun c => BRep c (x <<< k) ∧ c.nb = min (a.nb + k) w) := lshiftBV_ok le_rfl hk ha

theorem rshiftBV_ok {a : BShr n w} {x : BitVec w} {m k : ℕ} (hm : m ≤ k) (hk : k < w) (ha : BRep a x) :
    Ok Inv (rshiftBV a m k : M σ _) (fun c => BRep c (x >>> k) ∧ c.nb = a.nb - m) :=
  Ok.enforce (by simpa using ha.2.2) (Ok.enforce (by simpa using hk)
    (Ok.pure ⟨⟨(xorAll_map xlin_shr a.sh).trans (by rw [ha.1]),
      lt_of_lt_of_le (shr_lt ha.2.1) (Nat.pow_le_pow_right (by norm_num) (by show a.nb - min a.nb k ≤ a.nb - min a.nb m; omega)),
      le_trans (Nat.sub_le _ _) ha.2.2⟩, by show a.nb - min a.nb m = _; omega⟩))

theorem rshiftBK_ok {a : BShr n w} {x : BitVec w} {k : ℕ} (hk : k < w) (ha : BRep a x) :
    Ok Inv (rshiftBK a k : M σ _) (fun c => BRep c (x >>> k) ∧ c.nb = a.nb - k) := rshiftBV_ok le_rfl hk ha

theorem arshiftBK_ok {a : BShr n w} {x : BitVec w} {k : ℕ} (hk : k < w) (ha : BRep a x) :
    Ok Inv (arshiftBK a k : M σ _) (fun c => BRep c (x.sshiftRight k) ∧ c.nb = w) :=
  Ok.enforce (by simpa using hk) (Ok.pure ⟨⟨(xorAll_map xlin_sshr a.sh).trans (by rw [ha.1]), BitVec.isLt _,
    le_rfl⟩, rfl⟩)

theorem levels_both {M m s : ℕ} (hwM : w = 2 ^ M) (h128 : w ≤ 128) (hm : 2 ^ m ≤ w) :
    ∀ l ∈ deintlLevels s (2 ^ m), l < 6 ∧ 2 ^ (l + 2) ∣ 2 ^ m ∧ 2 ^ (l + 2) ∣ w := by
  have hdvd : 2 ^ m ∣ w := by
    rw [hwM] at hm ⊢
    exact pow_dvd_pow 2 ((Nat.pow_le_pow_iff_right (by norm_num)).1 hm)
  intro l hl
  have h1 := levels_ok (w := 2 ^ m) (by omega) (Nat.two_pow_pos m) dvd_rfl l hl
  exact ⟨h1.1, h1.2, h1.2.trans hdvd⟩

theorem deintlK_ok {M : ℕ} (hwM : w = 2 ^ M) (h128 : w ≤ 128) {a : BShr n w} {x r : BitVec w} {s m : ℕ}
    (ha : BRep a x) (hnb : a.nb = 2 ^ m) (hr : bitDeintl x s (2 ^ m) = some r) :
    Ok Inv (bitdeintlBK a s : Spu.Model.Circ.M σ _) (fun c => BRep c r ∧ c.nb = a.nb) := by
  have hm : 2 ^ m ≤ w := hnb ▸ ha.2.2
  have hl := levels_both (s := s) hwM h128 hm
  obtain ⟨f, hf, lf⟩ := fold_lin (w := w) (deintlLevels s (2 ^ m)) fun l h => (hl l h).1
  have e : r = f x := by have := hf x; unfold bitDeintl at hr; rw [hr] at this; exact Option.some_inj.1 this
  refine Ok.enforce (by rw [hnb]; exact singleBit_pow m) (ok_opt (a := fun i => f (a.sh i))
    (perParty_lin (fun x => by rw [hnb]; exact hf x) a.sh) (Ok.pure ⟨⟨?_, ?_, ha.2.2⟩, rfl⟩))
  · show xorAll (fun i => f (a.sh i)) = r
    rw [xorAll_map lf, ha.1, e]
  · show r.toNat < 2 ^ a.nb
    rw [hnb]
    exact fold_lt h128 _ hl (hnb ▸ ha.2.1) hr

theorem intlK_ok {M : ℕ} (hwM : w = 2 ^ M) (h128 : w ≤ 128) {a : BShr n w} {x r : BitVec w} {s m : ℕ}
    (ha : BRep a x) (hnb : a.nb = 2 ^ m) (hr : bitIntl x s (2 ^ m) = some r) :
    Ok Inv (bitintlBK a s : Spu.Model.Circ.M σ _) (fun c => BRep c r ∧ c.nb = a.nb) := by
  have hm : 2 ^ m ≤ w := hnb ▸ ha.2.2
  have hl : ∀ l ∈ intlLevels s (2 ^ m), l < 6 ∧ 2 ^ (l + 2) ∣ 2 ^ m ∧ 2 ^ (l + 2) ∣ w :=
    fun l h => levels_both (s := s) hwM h128 hm l (List.mem_reverse.1 h)
  obtain ⟨f, hf, lf⟩ := fold_lin (w := w) (intlLevels s (2 ^ m)) fun l h => (hl l h).1
  have e : r = f x := by have := hf x; unfold bitIntl at hr; rw [hr] at this; exact Option.some_inj.1 this
  refine Ok.enforce (by rw [hnb]; exact singleBit_pow m) (ok_opt (a := fun i => f (a.sh i))
    (perParty_lin (fun x => by rw [hnb]; exact hf x) a.sh) (Ok.pure ⟨⟨?_, ?_, ha.2.2⟩, rfl⟩))
  · show xorAll (fun i => f (a.sh i)) = r
    rw [xorAll_map lf, ha.1, e]
  · show r.toNat < 2 ^ a.nb
    rw [hnb]
    exact fold_lt h128 _ hl (hnb ▸ ha.2.1) hr

theorem lt_wordWidth (p : BitVec w) : p.toNat < 2 ^ wordWidth p := Nat.lt_size_self _

theorem wordWidth_le (p : BitVec w) : wordWidth p ≤ w := Nat.size_le.2 p.isLt

/-- The semi2k kernels are correct gates, for every party count and every valid randomness. -/
theorem c26_semi2k_gates (hE : EnvOk E Inv) {M : ℕ} (hwM : w = 2 ^ M) (h128 : w ≤ 128) :
    Sound (gates E) Inv BRep where
  nb_le h := h.2.2
  lt h := h.2.1
  xor ha hb := xorBBK_ok ha hb
  and ha hb := andBBK_ok hE h128 ha hb
  andP p ha := andBPK_ok p (lt_wordWidth p) ha
  shl ha hk _ := lshiftBK_ok hk ha
  shr ha hk _ := rshiftBK_ok hk ha
  deintl ha hn hr := deintlK_ok hwM h128 ha hn hr
  intl ha hn hr := intlK_ok hwM h128 ha hn hr

/-! ### bit reversal -/

theorem one_bit (i : ℕ) : (1 : BitVec w).getLsbD i = (decide (0 < w) && decide (i = 0)) := by
  rw [show (1 : BitVec w) = 1#w from rfl, BitVec.getLsbD_one]

theorem foldl_or_bit (P : ℕ → Prop) [DecidablePred P] (g : ℕ → ℕ) (l : List ℕ) : ∀ (t : BitVec w) (i : ℕ), i < w →
    (l.foldl (fun (t : BitVec w) idx => if P idx then t ||| ((1 : BitVec w) <<< g idx) else t) t).getLsbD i
      = (t.getLsbD i || l.any (fun idx => decide (P idx) && decide (g idx = i))) := by
  induction l with
  | nil => intro t i hi; simp
  | cons a l ih =>
    intro t i hi
    rw [List.foldl_cons, ih _ _ hi, List.any_cons]
    have hone : ((1 : BitVec w) <<< g a).getLsbD i = decide (g a = i) := by
      rw [BitVec.getLsbD_shiftLeft]
      have : (1 : BitVec w).getLsbD (i - g a) = decide (i - g a = 0) := by
        rw [one_bit]
        simp; omega
      rw [this, decide_eq_true hi]
      by_cases h : g a = i
      · simp [h]
      · rw [decide_eq_false h]
        by_cases h2 : i < g a
        · simp [h2]
        · simp; omega
    by_cases hP : P a
    · rw [if_pos hP, BitVec.getLsbD_or, hone, decide_eq_true hP, Bool.true_and, Bool.or_assoc]
    · rw [if_neg hP, decide_eq_false hP, Bool.false_and, Bool.false_or]

theorem revMask_bit_lt {start stop i : ℕ} (h1 : start ≤ stop) (h2 : stop < w) (hi : i < w) :
    (((1 : BitVec w) <<< stop) - ((1 : BitVec w) <<< start)).getLsbD i = decide (start ≤ i ∧ i < stop) := by
  have one : (1 : BitVec w).toNat = 1 := by
    rw [show (1 : BitVec w) = BitVec.ofNat w 1 from rfl, BitVec.toNat_ofNat]
    exact Nat.mod_eq_of_lt (Nat.one_lt_two_pow (by omega))
  have p1 : 2 ^ start ≤ 2 ^ stop := Nat.pow_le_pow_right (by norm_num) h1
  have p2 : 2 ^ stop < 2 ^ w := Nat.pow_lt_pow_right (by norm_num) h2
  have e : (((1 : BitVec w) <<< stop) - ((1 : BitVec w) <<< start)).toNat = (2 ^ (stop - start) - 1) * 2 ^ start := by
    rw [BitVec.toNat_sub, BitVec.toNat_shiftLeft, BitVec.toNat_shiftLeft, one, Nat.shiftLeft_eq, Nat.shiftLeft_eq,
      one_mul, one_mul, Nat.mod_eq_of_lt p2, Nat.mod_eq_of_lt (lt_of_le_of_lt p1 p2), Nat.sub_mul, ← pow_add,
      Nat.sub_add_cancel h1, one_mul]
    rw [show 2 ^ w - 2 ^ start + 2 ^ stop = (2 ^ stop - 2 ^ start) + 2 ^ w by omega, Nat.add_mod_right,
      Nat.mod_eq_of_lt (lt_of_le_of_lt (Nat.sub_le _ _) p2)]
  unfold BitVec.getLsbD
  rw [e, mul_comm, Nat.testBit_two_pow_mul, Nat.testBit_two_pow_sub_one]
  by_cases a : start ≤ i
  · by_cases b : i < stop
    · simp [a, b]; omega
    · simp [a, b]; omega
  · simp [a]

theorem revMask_bit {start stop i : ℕ} (h1 : start ≤ stop) (h2 : stop ≤ w) (hi : i < w) :
    (((1 : BitVec w) <<< stop) - ((1 : BitVec w) <<< start)).getLsbD i = decide (start ≤ i ∧ i < stop) := by
  rcases h2.lt_or_eq with h | rfl
  · exact revMask_bit_lt h1 h hi
  · -- the word is `0 - 2^start`
    have e : (((1 : BitVec stop) <<< stop) - ((1 : BitVec stop) <<< start)) =
        ((((1 : BitVec (stop + 1)) <<< stop) - ((1 : BitVec (stop + 1)) <<< start))).setWidth stop := by
      have h1' : ∀ k : ℕ, BitVec.setWidth stop ((1 : BitVec (stop + 1)) <<< k) = (1 : BitVec stop) <<< k := by
        intro k
        refine BitVec.eq_of_getLsbD_eq fun q hq => ?_
        rw [BitVec.getLsbD_setWidth, BitVec.getLsbD_shiftLeft, BitVec.getLsbD_shiftLeft, one_bit, one_bit]
        simp [hq, show q < stop + 1 by omega, show 0 < stop by omega]
      rw [← h1', ← h1']
      have h2' := BitVec.setWidth_add (i := stop) (((1 : BitVec (stop + 1)) <<< stop) - ((1 : BitVec (stop + 1)) <<< start))
        ((1 : BitVec (stop + 1)) <<< start) (by omega)
      rw [BitVec.sub_add_cancel] at h2'
      rw [h2', BitVec.add_sub_cancel]
    rw [e, BitVec.getLsbD_setWidth, revMask_bit_lt h1 (by omega) (by omega)]
    simp [hi]

theorem bitrevWord_bit {start stop : ℕ} (h1 : start ≤ stop) (h2 : stop ≤ w) (x : BitVec w) {i : ℕ} (hi : i < w) :
    (bitrevWord x start stop).getLsbD i = x.getLsbD (revIdx start stop i) := by
  unfold bitrevWord
  have hP : ∀ idx, idx < w → (decide (x &&& ((1 : BitVec w) <<< idx) ≠ 0) = x.getLsbD idx) := by
    intro idx hidx
    have hb : ∀ q, q < w → (x &&& ((1 : BitVec w) <<< idx)).getLsbD q = (x.getLsbD q && decide (idx = q)) := by
      intro q hq
      rw [BitVec.getLsbD_and]
      congr 1
      have := foldl_or_bit (fun _ => True) (fun _ => idx) [0] (0 : BitVec w) q hq
      simpa using this
    cases hx : x.getLsbD idx
    · rw [decide_eq_false]
      rw [not_not]
      refine BitVec.eq_of_getLsbD_eq fun q hq => ?_
      rw [hb q hq]
      by_cases h : idx = q
      · subst h; simp [hx]
      · simp [h]
    · rw [decide_eq_true]
      intro hc
      have := hb idx hidx
      rw [hc, hx] at this
      simp at this
  rw [BitVec.getLsbD_or, BitVec.getLsbD_and, BitVec.getLsbD_not, revMask_bit h1 h2 hi,
    foldl_or_bit (fun idx => x &&& ((1 : BitVec w) <<< idx) ≠ 0) (fun idx => stop - 1 - idx + start) _ _ _ hi]
  unfold revIdx
  by_cases h : start ≤ i ∧ i < stop
  · rw [if_pos h, decide_eq_true h]
    simp only [Bool.not_true, Bool.and_false, Bool.false_or]
    rw [show (0 : BitVec w).getLsbD i = false from BitVec.getLsbD_zero, Bool.false_or, Bool.eq_iff_iff, List.any_eq_true]
    constructor
    · rintro ⟨idx, hm, hh⟩
      rw [List.mem_filter, List.mem_range, decide_eq_true_eq] at hm
      rw [Bool.and_eq_true, decide_eq_true_eq (p := _ = _)] at hh
      rw [hP idx (by omega)] at hh
      rw [show start + (stop - 1 - i) = idx by omega]
      exact hh.1
    · intro hx
      refine ⟨start + (stop - 1 - i), ?_, ?_⟩
      · rw [List.mem_filter, List.mem_range, decide_eq_true_eq]; omega
      · rw [hP _ (by omega), hx, Bool.true_and, decide_eq_true_eq]; omega
  · rw [if_neg h, decide_eq_false h]
    have hn : ((List.range stop).filter (fun idx => decide (start ≤ idx))).any
        (fun idx => decide (x &&& ((1 : BitVec w) <<< idx) ≠ 0) && decide (stop - 1 - idx + start = i)) = false := by
      rw [List.any_eq_false]
      intro idx hm
      rw [List.mem_filter, List.mem_range, decide_eq_true_eq] at hm
      rw [Bool.and_eq_true, not_and, decide_eq_true_eq (p := _ = _)]
      intro _
      omega
    rw [hn, show (0 : BitVec w).getLsbD i = false from BitVec.getLsbD_zero]
    simp [hi]

/-- `ring_bitrev` reverses exactly the bits `start..stop-1`. -/
theorem c46_bitrev {start stop : ℕ} (h1 : start ≤ stop) (h2 : stop < w) (x : BitVec w) :
    ∃ r, bitrev x start stop = some r ∧ ∀ i, i < w → r.getLsbD i = x.getLsbD (revIdx start stop i) :=
  ⟨_, if_pos ⟨h2, by omega⟩, fun _ hi => bitrevWord_bit h1 h2.le x hi⟩

/-- Reversing the bits up to the word width is accepted by the argument check of the kernel but then shifts a
word by its own width, which is undefined. -/
theorem c46_bitrev_full_width_undefined (start : ℕ) (x : BitVec w) : bitrev x start w = none :=
  if_neg (by omega)

theorem bitrevBK_ok {start stop : ℕ} (h1 : start ≤ stop) (h2 : stop < w) {a : BShr n w} {x : BitVec w} (ha : BRep a x) :
    Ok Inv (bitrevBK a start stop : M σ _) (fun c => c.nb = max a.nb stop ∧
      ∃ r, BRep c r ∧ ∀ i, i < w → r.getLsbD i = x.getLsbD (revIdx start stop i)) := by
  have hf : ∀ x : BitVec w, bitrev x start stop = some ((bitrev x start stop).getD 0) := by
    intro x
    obtain ⟨r, hr, _⟩ := c46_bitrev h1 h2 x
    rw [hr]; rfl
  have hb : ∀ (x : BitVec w) i, i < w → ((bitrev x start stop).getD 0).getLsbD i = x.getLsbD (revIdx start stop i) := by
    intro x i hi
    obtain ⟨r, hr, h⟩ := c46_bitrev h1 h2 x
    rw [hr]; exact h i hi
  refine Ok.enforce (by simpa using h1) (Ok.enforce (by simpa using h2.le) (ok_opt (perParty_lin hf a.sh)
    (Ok.pure ⟨rfl, _, ⟨xorAll_map (xlin_of_bits _ hb) a.sh, ?_, ?_⟩, fun i hi => ?_⟩)))
  · refine lt_of_bits fun i hi => ?_
    by_cases hiw : i < w
    · have hi2 : max a.nb stop ≤ i := hi
      have e : revIdx start stop i = i := by unfold revIdx; rw [if_neg (by omega)]
      rw [hb _ i hiw, ha.1, e, bit_of_lt ha.2.1 (by omega)]
    · exact BitVec.getLsbD_of_ge _ _ (by omega)
  · exact max_le ha.2.2 h2.le
  · rw [hb _ i hi, ha.1]

theorem p2bK_ok (hE : EnvOk E Inv) {p : BitVec w} {np : ℕ} (hp : p.toNat < 2 ^ np) (hnp : np ≤ w) :
    Ok Inv (p2bK E p np) (fun c => BRep c p ∧ c.nb = np) := by
  refine Ok.bind hE.prss fun ⟨r0, r1⟩ hr => Ok.pure ⟨⟨?_, hp, hnp⟩, rfl⟩
  show xorAll (fun i => if i = 0 then (fun i => r0 i ^^^ r1 i) i ^^^ (fun _ => p) i else (fun i => r0 i ^^^ r1 i) i) = p
  rw [xorAll_ite, xorAll_prss hr]; exact BitVec.zero_xor

theorem and_one_bit (x : BitVec w) : x &&& 1 = BitVec.ofNat w (x.getLsbD 0).toNat := by
  refine BitVec.eq_of_getLsbD_eq fun i hi => ?_
  rw [BitVec.getLsbD_and, one_bit]
  rcases i with _ | i
  · cases hh : x.getLsbD 0 <;> simp [hi]
  · cases hh : x.getLsbD 0
    · simp
    · rw [Bool.toNat_true, BitVec.getLsbD_ofNat]; simp [Nat.testBit_succ]

theorem randBK_ok (hE : EnvOk E Inv) (hw : 0 < w) :
    Ok Inv (randBK E) (fun c => ∃ b : Bool, BRep c (BitVec.ofNat w b.toNat) ∧ c.nb = 1) := by
  refine Ok.bind hE.priv fun r _ => Ok.pure ⟨(xorAll r).getLsbD 0, ⟨?_, ?_, hw⟩, rfl⟩
  · rw [← and_one_bit]; exact xorAll_map (xlin_and 1) r
  · rw [← and_one_bit]
    refine lt_of_bits (n := 1) fun i hi => ?_
    rw [BitVec.getLsbD_and, one_bit]
    simp; omega

end

end Spu.Props

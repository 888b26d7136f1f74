import Verif.Model.CheetahTrunc
import Verif.Props.CheetahCmp

set_option autoImplicit false

/-!
# C54: truncation, most significant bit and equality kernels of cheetah
-/

namespace Spu.Props
open Spu.Model.Circ Spu.Model.CheetahZip Spu.Model.CheetahOt Spu.Model.CheetahCmp Spu.Model.CheetahTrunc Spu.Spec Spu.Lemmas

variable {σ : Type} {w : ℕ} {ot : Ot σ w} {Inv : σ → Prop}

theorem top_word (hw : 0 < w) (v : BitVec w) : top v = word (decide (2 ^ (w - 1) ≤ v.toNat)) := by
  apply BitVec.eq_of_getLsbD_eq
  intro k hk
  unfold top
  rw [BitVec.getLsbD_and, show (1 : BitVec w) = 1#w from rfl, BitVec.getLsbD_one, word_bit hw, BitVec.getLsbD_ushiftRight]
  rcases k with _ | k
  · have hm : v.getLsbD (w - 1) = decide (2 ^ (w - 1) ≤ v.toNat) := by
      have hv := v.isLt
      have hN : 2 ^ w = 2 * 2 ^ (w - 1) := by rw [← pow_succ']; congr 1; omega
      have hd : v.toNat / 2 ^ (w - 1) = if 2 ^ (w - 1) ≤ v.toNat then 1 else 0 := by
        split
        · rename_i h
          have : v.toNat / 2 ^ (w - 1) < 2 := (Nat.div_lt_iff_lt_mul (by positivity)).2 (by omega)
          have : 1 ≤ v.toNat / 2 ^ (w - 1) := (Nat.le_div_iff_mul_le (by positivity)).2 (by omega)
          omega
        · rename_i h
          exact Nat.div_eq_of_lt (by omega)
      rw [BitVec.getLsbD, Nat.testBit_eq_decide_div_mod_eq, hd]
      split <;> simp_all
    rw [Nat.add_zero, hm]
    simp [hw]
  · simp

theorem word_ne_zero8 (hw : 0 < w) (b : Bool) : ((word (w := w) b).setWidth 8 = 0) ↔ b = false := by
  cases b
  · simp [word]
  · constructor
    · intro h
      have := congrArg (fun z : BitVec 8 => z.getLsbD 0) h
      simp [BitVec.getLsbD_setWidth, word_bit hw] at this
    · intro h; cases h

/-- whether adding the two words overflows -/
def wraps (a b : BitVec w) : Bool := decide (2 ^ w ≤ a.toNat + b.toNat)

theorem wraps_msb (hw : 0 < w) (a b : BitVec w) :
    ((a + b).toNat < 2 ^ (w - 1) → wraps a b = (decide (2 ^ (w - 1) ≤ a.toNat) || decide (2 ^ (w - 1) ≤ b.toNat))) ∧
    (2 ^ (w - 1) ≤ (a + b).toNat → wraps a b = (decide (2 ^ (w - 1) ≤ a.toNat) && decide (2 ^ (w - 1) ≤ b.toNat))) := by
  have ha := a.isLt
  have hb := b.isLt
  have hN : 2 ^ w = 2 * 2 ^ (w - 1) := by rw [← pow_succ']; congr 1; omega
  unfold wraps
  rw [BitVec.toNat_add]
  rw [hN] at ha hb ⊢
  generalize 2 ^ (w - 1) = H at *
  by_cases h : 2 * H ≤ a.toNat + b.toNat
  · rw [Nat.mod_eq_sub_mod h, Nat.mod_eq_of_lt (by omega)]
    simp only [h, decide_true]
    constructor
    · intro h2
      have : H ≤ a.toNat ∨ H ≤ b.toNat := by omega
      rcases this with h3 | h3 <;> simp [h3]
    · intro h2
      have h3 : H ≤ a.toNat := by omega
      have h4 : H ≤ b.toNat := by omega
      simp [h3, h4]
  · rw [Nat.mod_eq_of_lt (by omega)]
    have h' : decide (2 * H ≤ a.toNat + b.toNat) = false := by simpa using h
    rw [h']
    constructor
    · intro h2
      have h3 : ¬ H ≤ a.toNat := by omega
      have h4 : ¬ H ≤ b.toNat := by omega
      simp [h3, h4]
    · intro h2
      by_cases h3 : H ≤ a.toNat
      · have h4 : ¬ H ≤ b.toNat := by omega
        simp [h4]
      · simp [h3]

theorem msb1_ok (hO : OtOk ot Inv) {shift n : ℕ} (h0 : 0 < shift) (hs : shift ≤ w) (hn : 0 < n) (x : Share w)
    (hx : ∀ i, i < n → 2 ^ (w - 1) ≤ (valA x i).toNat) :
    Ok Inv (msb1ToWrap ot shift n x) fun z => ∀ i, i < n → Cong shift (valA z i) (word (wraps (x 0 i) (x 1 i))) := by
  have hw : 0 < w := by omega
  unfold msb1ToWrap
  refine Ok.bind (hO.camcc 0 _ _ hs hn) ?_
  rintro ⟨s, r⟩ h
  refine Ok.pure fun i hi => ?_
  have c := h i hi
  rw [if_neg (by omega)] at c
  have e : (if (top (x 1 i)).setWidth 8 = (0 : BitVec 8) then 0 else top (x 0 i)) = word (w := w) (wraps (x 0 i) (x 1 i)) := by
    rw [(wraps_msb hw _ _).2 (hx i hi), top_word hw, top_word hw]
    by_cases h1 : 2 ^ (w - 1) ≤ (x 1 i).toNat
    · rw [if_neg (by rw [word_ne_zero8 hw]; simp [h1])]
      simp [h1]
    · rw [if_pos (by rw [word_ne_zero8 hw]; simpa using h1)]
      simp [h1, word]
  rw [e] at c
  simp only [valA, if_true, if_neg (show ¬ (1 : Fin 2) = 0 by decide)]
  rw [show -s i + r i = r i - s i by ring]
  exact c

theorem lowBits_one_word (hw : 0 < w) (b : Bool) : word (w := w) b &&& 1 = word b := by
  apply BitVec.eq_of_getLsbD_eq
  intro k _
  rw [BitVec.getLsbD_and, show (1 : BitVec w) = 1#w from rfl, BitVec.getLsbD_one, word_bit hw]
  rcases k with _ | k <;> simp [hw]

theorem sized_cong (hO : OtOk ot Inv) {shift n : ℕ} (h1 : 1 < shift) (hs : shift < w) (hn : 0 < n) {x : Share w} {b : ℕ → Bool}
    (hx : ∀ i, i < n → valB x i = word (b i)) :
    Ok Inv (b2aSized ot shift n x) fun z => ∀ i, i < n → Cong shift (valA z i) (word (b i)) := by
  refine Ok.imp (c52_b2aSized hO h1 hs hn x) fun z hz i hi => ?_
  have := (hz i hi).2
  rw [hx i hi, lowBits_one_word (by omega)] at this
  exact ((Cong.lowBits _).symm.trans (by rw [this]; exact Cong.refl _ _)).trans (Cong.lowBits _)

theorem msb0_ok (hO : OtOk ot Inv) {shift n : ℕ} (h1 : 1 < shift) (hs : shift < w) (hn : 0 < n) (x : Share w)
    (hx : ∀ i, i < n → (valA x i).toNat < 2 ^ (w - 1)) :
    Ok Inv (msb0ToWrap ot shift n x) fun z => ∀ i, i < n → Cong shift (valA z i) (word (wraps (x 0 i) (x 1 i))) := by
  have hw : 0 < w := by omega
  have ch : ∀ i, ((top (x 1 i)).setWidth 8).toNat = if 2 ^ (w - 1) ≤ (x 1 i).toNat then 1 else 0 := by
    intro i
    rw [top_word hw]
    split
    · rename_i h
      rw [decide_eq_true h, word, if_pos rfl]
      rw [show (1 : BitVec w) = 1#w from rfl, BitVec.toNat_setWidth, BitVec.toNat_ofNat, Nat.mod_eq_of_lt (Nat.one_lt_two_pow (by omega))]
    · rename_i h
      rw [decide_eq_false h, word, if_neg (by decide)]
      simp
  unfold msb0ToWrap
  refine Ok.bind (hO.randBit n) fun rnd hrnd => ?_
  refine Ok.bind (hO.cmcc 0 _ _ (by decide) (by omega) (by omega) hn ?_) fun r hr => ?_
  · intro i hi
    rw [ch]
    split <;> omega
  refine sized_cong hO h1 hs hn fun i hi => ?_
  have hb := hr i hi
  rw [(wraps_msb hw _ _).1 (hx i hi)]
  simp only [ch] at hb
  simp only [valB, if_true, if_neg (show ¬ (1 : Fin 2) = 0 by decide)]
  obtain ⟨c, hc⟩ : ∃ c, rnd i = word c := by
    rcases hrnd i hi with h | h
    · exact ⟨false, h⟩
    · exact ⟨true, h⟩
  have one8 : ∀ b : Bool, BitVec.ofNat 8 ((word (w := 8) b).toNat % 2 ^ 1) &&& 1 = word b := by decide
  have set8 : ∀ b : Bool, (word (w := w) b).setWidth 8 = word (w := 8) b := by
    intro b
    apply BitVec.eq_of_getLsbD_eq
    intro k hk
    rw [BitVec.getLsbD_setWidth, word_bit hw, word_bit (by omega)]
    simp [hk]
  have hone : (1 : BitVec w) = word true := rfl
  by_cases h2 : 2 ^ (w - 1) ≤ (x 1 i).toNat
  · rw [if_pos h2, if_neg (by omega), show (i * 2 + 1) / 2 = i by omega, hc, hone, word_xor hw, set8] at hb
    rw [hb, one8, word_set8 hw, hc, word_xor hw]
    simp [h2]
  · rw [if_neg h2, Nat.add_zero, if_pos (by omega), show i * 2 / 2 = i by omega, hc, top_word hw, word_xor hw, set8] at hb
    rw [hb, one8, word_set8 hw, hc, word_xor hw]
    simp [h2]

/-- the hint about the sign is true of a value -/
def Truthful (s : Sign) (neg : Bool) : Prop :=
  match s with
  | .unknown => True
  | .positive => neg = false
  | .negative => neg = true

/-- the calls that convert a boolean wrap bit need more than one bit -/
def NeedsTwo (m : Meta) : Prop := m.sign = .unknown ∨ m.sign = .positive ∧ m.signed = false ∨ m.sign = .negative ∧ m.signed = true

theorem computeWrap_ok (hO : OtOk ot Inv) (junk : ℕ → ℕ → Share w) (hw : 4 ≤ w) {m : Meta} {n : ℕ} (h0 : 0 < m.shift) (hs : m.shift < w) (hn : 0 < n)
    (h2 : NeedsTwo m → 1 < m.shift) (x : Share w) (ht : ∀ i, i < n → Truthful m.sign (m.signed ^^ decide (2 ^ (w - 1) ≤ (valA x i).toNat))) :
    Ok Inv (computeWrap ot junk m n x) fun z => ∀ i, i < n → Cong m.shift (valA z i) (word (wraps (x 0 i) (x 1 i))) := by
  unfold computeWrap
  unfold NeedsTwo at h2
  unfold Truthful at ht
  cases hsg : m.sign <;> simp only [hsg] at ht h2 ⊢
  · have := c53_compare_full hO junk (radix := 4) (by omega) (by omega) (by decide) hw hn true
      fun p i => if p = 0 then x 0 i else -x 1 i - 1
    refine Ok.bind this fun b hb => ?_
    refine sized_cong hO (h2 (.inl trivial)) hs hn fun i hi => ?_
    rw [hb i hi]
    congr 1
    simp only [if_true, if_neg (show ¬ (1 : Fin 2) = 0 by decide), cmpB, wraps]
    have e : (-x 1 i - 1).toNat = 2 ^ w - 1 - (x 1 i).toNat := by
      rw [show -x 1 i - 1 = ~~~(x 1 i) from (BitVec.not_eq_neg_add _).symm, BitVec.toNat_not]
    rw [e]
    have := (x 1 i).isLt
    congr 1
    exact propext ⟨fun h => by omega, fun h => by omega⟩
  · cases hsd : m.signed <;> simp only [hsd] at ht h2 ⊢
    · exact msb0_ok hO (h2 (by simp)) hs hn x fun i hi => by simpa using ht i hi
    · exact msb1_ok hO h0 hs.le hn x fun i hi => by simpa using ht i hi
  · cases hsd : m.signed <;> simp only [hsd] at ht h2 ⊢
    · exact msb1_ok hO h0 hs.le hn x fun i hi => by simpa using ht i hi
    · exact msb0_ok hO (h2 (by simp)) hs hn x fun i hi => by simpa using ht i hi


/-- the shares shifted separately miss the carry of the low parts -/
theorem shift_split (a b : BitVec w) {s : ℕ} (hs : s ≤ w) :
    ∃ c : ℕ, c ≤ 1 ∧ a.toNat / 2 ^ s + b.toNat / 2 ^ s + c = (a + b).toNat / 2 ^ s + (if wraps a b then 2 ^ (w - s) else 0) := by
  have hp : 0 < 2 ^ s := by positivity
  have hsum : a.toNat + b.toNat = (a + b).toNat + if wraps a b then 2 ^ w else 0 := by
    rw [BitVec.toNat_add]
    unfold wraps
    have := a.isLt
    have := b.isLt
    by_cases h : 2 ^ w ≤ a.toNat + b.toNat
    · rw [if_pos (by simpa using h), Nat.mod_eq_sub_mod h, Nat.mod_eq_of_lt (by omega)]
      omega
    · rw [if_neg (by simpa using h), Nat.mod_eq_of_lt (by omega)]
      omega
  have hdiv : (a.toNat + b.toNat) / 2 ^ s = (a + b).toNat / 2 ^ s + if wraps a b then 2 ^ (w - s) else 0 := by
    rw [hsum]
    split
    · rw [show 2 ^ w = 2 ^ (w - s) * 2 ^ s by rw [← pow_add]; congr 1; omega, Nat.add_mul_div_right _ _ hp]
    · simp
  refine ⟨(a.toNat % 2 ^ s + b.toNat % 2 ^ s) / 2 ^ s, ?_, ?_⟩
  · have := Nat.mod_lt a.toNat hp
    have := Nat.mod_lt b.toNat hp
    exact Nat.lt_succ_iff.1 ((Nat.div_lt_iff_lt_mul hp).2 (by omega))
  · rw [← hdiv]
    conv_rhs => rw [← Nat.div_add_mod a.toNat (2 ^ s), ← Nat.div_add_mod b.toNat (2 ^ s)]
    rw [show 2 ^ s * (a.toNat / 2 ^ s) + a.toNat % 2 ^ s + (2 ^ s * (b.toNat / 2 ^ s) + b.toNat % 2 ^ s) =
      (a.toNat % 2 ^ s + b.toNat % 2 ^ s) + 2 ^ s * (a.toNat / 2 ^ s + b.toNat / 2 ^ s) by ring, Nat.add_mul_div_left _ _ hp]
    ring

theorem ofInt_nat (k : ℕ) : BitVec.ofInt w (k : ℤ) = BitVec.ofNat w k := BitVec.ofInt_natCast w k

theorem shl_one {k : ℕ} : (1 : BitVec w) <<< k = BitVec.ofNat w (2 ^ k) := by
  apply BitVec.eq_of_toNat_eq
  rw [BitVec.toNat_shiftLeft, show (1 : BitVec w) = 1#w from rfl, BitVec.toNat_ofNat, BitVec.toNat_ofNat, Nat.shiftLeft_eq, Nat.mod_mul_mod, Nat.one_mul]

/-- the value that the shifted shares add up to, before the low bit is balanced -/
theorem core_sum {a b w0 w1 : BitVec w} {s : ℕ} (h0 : 0 < s) (hs : s < w) (hw : Cong s (w0 + w1) (word (wraps a b))) :
    ∃ c : ℤ, (c = 0 ∨ c = 1) ∧
      (a >>> s - w0 <<< (w - s)) + (b >>> s - w1 <<< (w - s)) = BitVec.ofInt w (((a + b).toNat / 2 ^ s : ℕ) - c) := by
  obtain ⟨c, hc, he⟩ := shift_split a b hs.le
  refine ⟨c, by omega, ?_⟩
  have hshl : w0 <<< (w - s) + w1 <<< (w - s) = if wraps a b then BitVec.ofNat w (2 ^ (w - s)) else 0 := by
    rw [← BitVec.shiftLeft_add_distrib, shl_congr (x := w0 + w1) (y := word (wraps a b)) (by rw [show w - (w - s) = s by omega]; exact hw)]
    unfold word
    split
    · exact shl_one
    · simp
  have hr : ∀ v : BitVec w, v >>> s = BitVec.ofNat w (v.toNat / 2 ^ s) := by
    intro v
    apply BitVec.eq_of_toNat_eq
    rw [BitVec.toNat_ushiftRight, BitVec.toNat_ofNat, Nat.shiftRight_eq_div_pow, Nat.mod_eq_of_lt (lt_of_le_of_lt (Nat.div_le_self _ _) v.isLt)]
  rw [show a >>> s - w0 <<< (w - s) + (b >>> s - w1 <<< (w - s)) = a >>> s + b >>> s - (w0 <<< (w - s) + w1 <<< (w - s)) by ring, hshl, hr, hr]
  have hz : ((a + b).toNat / 2 ^ s : ℕ) - (c : ℤ) = (a.toNat / 2 ^ s : ℕ) + (b.toNat / 2 ^ s : ℕ) - (if wraps a b then ((2 ^ (w - s) : ℕ) : ℤ) else 0) := by
    have := congrArg (fun k : ℕ => (k : ℤ)) he
    split at this <;> rename_i h <;> simp only [h, if_true, if_false] <;> push_cast at this ⊢ <;> omega
  rw [hz]
  rw [Int.sub_eq_add_neg, BitVec.ofInt_add, BitVec.ofInt_add, ofInt_nat, ofInt_nat, BitVec.ofInt_neg]
  split
  · rw [ofInt_nat, sub_eq_add_neg]
  · simp

/-- the value to be shifted: signed or unsigned -/
def plain (signed : Bool) (v : BitVec w) : ℤ := if signed then v.toInt else v.toNat

/-- moving by half the ring turns the signed value into an unsigned one -/
theorem add_half_toNat (hw : 0 < w) (v : BitVec w) : ((v + (1 : BitVec w) <<< (w - 1)).toNat : ℤ) = v.toInt + 2 ^ (w - 1) := by
  have hv := v.isLt
  have hN : 2 ^ w = 2 * 2 ^ (w - 1) := by rw [← pow_succ']; congr 1; omega
  have hl : 2 ^ (w - 1) < 2 ^ w := by
    have : 0 < 2 ^ (w - 1) := by positivity
    omega
  rw [BitVec.toNat_add, shl_one, BitVec.toNat_ofNat, Nat.mod_eq_of_lt hl, BitVec.toInt_eq_toNat_cond]
  have hz : ((2 ^ w : ℕ) : ℤ) = 2 * 2 ^ (w - 1) := by rw [hN]; push_cast; rfl
  have hz' : ((2 ^ (w - 1) : ℕ) : ℤ) = 2 ^ (w - 1) := by push_cast; rfl
  by_cases h : 2 * v.toNat < 2 ^ w
  · rw [if_pos h, Nat.mod_eq_of_lt (by omega)]
    push_cast
    rfl
  · rw [if_neg h, Nat.mod_eq_sub_mod (by omega), Nat.mod_eq_of_lt (by omega)]
    omega

theorem truncCore_ok (hO : OtOk ot Inv) (junk : ℕ → ℕ → Share w) (hw : 4 ≤ w) {m : Meta} {n : ℕ} (h0 : 0 < m.shift) (hs : m.shift < w) (hn : 0 < n)
    (h2 : NeedsTwo m → 1 < m.shift) (x : Share w) (ht : ∀ i, i < n → Truthful m.sign (decide (2 ^ (w - 1) ≤ (valA x i).toNat))) :
    Ok Inv (truncCore ot junk m n x) fun z => ∀ i, i < n → ∃ e : ℤ, (e = -1 ∨ e = 0 ∨ e = 1) ∧
      valA z i = BitVec.ofInt w (plain m.signed (valA x i) / 2 ^ m.shift + e) := by
  have hw0 : 0 < w := by omega
  unfold truncCore
  let x' : Share w := fun p i => if m.signed && decide (p = 0) then x p i + (1 : BitVec w) <<< (w - 1) else x p i
  have hx' : ∀ i, valA x' i = if m.signed then valA x i + (1 : BitVec w) <<< (w - 1) else valA x i := by
    intro i
    simp only [valA, x']
    cases m.signed
    · simp
    · simp only [Bool.true_and, decide_true, if_true]
      rw [if_neg (by decide)]
      ring
  -- the value of the shifted representation
  have hval : ∀ i, plain m.signed (valA x i) = ((valA x' i).toNat : ℤ) - if m.signed then 2 ^ (w - 1) else 0 := by
    intro i
    rw [hx']
    unfold plain
    cases m.signed
    · simp
    · simp only [if_true]
      rw [add_half_toNat hw0]
      ring
  have ht' : ∀ i, i < n → Truthful m.sign (m.signed ^^ decide (2 ^ (w - 1) ≤ (valA x' i).toNat)) := by
    intro i hi
    have h := ht i hi
    have e : (m.signed ^^ decide (2 ^ (w - 1) ≤ (valA x' i).toNat)) = decide (2 ^ (w - 1) ≤ (valA x i).toNat) := by
      rw [hx']
      cases m.signed
      · simp
      · simp only [if_true, Bool.true_xor]
        have h1 := add_half_toNat hw0 (valA x i)
        have hv := (valA x i).isLt
        have hN : 2 ^ w = 2 * 2 ^ (w - 1) := by rw [← pow_succ']; congr 1; omega
        rw [BitVec.toInt_eq_toNat_cond] at h1
        have hz : ((2 ^ w : ℕ) : ℤ) = 2 * ((2 ^ (w - 1) : ℕ) : ℤ) := by rw [hN]; push_cast; rfl
        have hz' : (2 : ℤ) ^ (w - 1) = ((2 ^ (w - 1) : ℕ) : ℤ) := by push_cast; rfl
        rw [hz'] at h1
        by_cases hc : 2 * (valA x i).toNat < 2 ^ w
        · rw [if_pos hc] at h1
          have a1 : 2 ^ (w - 1) ≤ (valA x i + (1 : BitVec w) <<< (w - 1)).toNat := by omega
          have a2 : ¬ 2 ^ (w - 1) ≤ (valA x i).toNat := by omega
          rw [decide_eq_true a1, decide_eq_false a2]
          rfl
        · rw [if_neg hc] at h1
          have a1 : ¬ 2 ^ (w - 1) ≤ (valA x i + (1 : BitVec w) <<< (w - 1)).toNat := by omega
          have a2 : 2 ^ (w - 1) ≤ (valA x i).toNat := by omega
          rw [decide_eq_false a1, decide_eq_true a2]
          rfl
    rw [e]
    exact h
  refine Ok.bind (computeWrap_ok hO junk hw h0 hs hn h2 x' ht') fun wr hwr => Ok.pure fun i hi => ?_
  obtain ⟨c, hc, hsum⟩ := core_sum h0 hs (hwr i hi)
  -- the low bit that party 0 adds
  obtain ⟨o, ho⟩ : ∃ o, o = (if m.signed then x' 0 i >>> m.shift - wr 0 i <<< (w - m.shift) - (1 : BitVec w) <<< (w - m.shift - 1)
    else x' 0 i >>> m.shift - wr 0 i <<< (w - m.shift)) := ⟨_, rfl⟩
  have hz : valA (fun p i =>
      let o := x' p i >>> m.shift - wr p i <<< (w - m.shift)
      let o := if m.signed && decide (p = 0) then o - (1 : BitVec w) <<< (w - m.shift - 1) else o
      if p = 0 then o + (o &&& 1) else o) i = o + (o &&& 1) + (x' 1 i >>> m.shift - wr 1 i <<< (w - m.shift)) := by
    simp only [valA]
    rw [if_pos trivial, if_neg (show ¬ (1 : Fin 2) = 0 by decide)]
    rw [ho]
    cases m.signed <;> simp
  refine ⟨(if o &&& 1 = 1 then 1 else 0) - c, by split <;> omega, ?_⟩
  refine Eq.trans hz ?_
  have hob : o &&& 1 = BitVec.ofInt w (if o &&& 1 = 1 then 1 else 0) := by
    rcases bit01 o hw0 with h | h
    · have h10 : ¬ (0 : BitVec w) = 1 := by
        intro h'
        have := congrArg (fun z : BitVec w => z.getLsbD 0) h'
        rw [show (1 : BitVec w) = 1#w from rfl] at this
        simp [hw0] at this
      rw [h, if_neg h10]
      simp
    · rw [h, if_pos rfl]
      exact (BitVec.ofInt_ofNat w 1).symm
  have hbase : o + (x' 1 i >>> m.shift - wr 1 i <<< (w - m.shift)) = BitVec.ofInt w (plain m.signed (valA x i) / 2 ^ m.shift - c) := by
    rw [hval i, ho]
    have hdvd : ((valA x' i).toNat : ℤ) / 2 ^ m.shift = ((valA x' i).toNat / 2 ^ m.shift : ℕ) := by push_cast; rfl
    cases hsd : m.signed
    · simp only [Bool.false_eq_true, if_false, sub_zero]
      rw [hsum, hdvd]
      rfl
    · simp only [if_true]
      have hsplit : ((2 : ℤ) ^ (w - 1)) = 2 ^ (w - m.shift - 1) * 2 ^ m.shift := by rw [← pow_add]; congr 1; omega
      rw [hsplit, Int.sub_mul_ediv_right _ _ (by positivity), hdvd]
      rw [show x' 0 i >>> m.shift - wr 0 i <<< (w - m.shift) - (1 : BitVec w) <<< (w - m.shift - 1) + (x' 1 i >>> m.shift - wr 1 i <<< (w - m.shift)) =
        (x' 0 i >>> m.shift - wr 0 i <<< (w - m.shift)) + (x' 1 i >>> m.shift - wr 1 i <<< (w - m.shift)) - (1 : BitVec w) <<< (w - m.shift - 1) by ring, hsum, shl_one]
      rw [show (((valA x' i).toNat / 2 ^ m.shift : ℕ) : ℤ) - 2 ^ (w - m.shift - 1) - c = (((valA x' i).toNat / 2 ^ m.shift : ℕ) - c) + -((2 ^ (w - m.shift - 1) : ℕ) : ℤ) by push_cast; ring,
        BitVec.ofInt_add, BitVec.ofInt_neg, ofInt_nat, ← sub_eq_add_neg]
      rfl
  rw [show o + (o &&& 1) + (x' 1 i >>> m.shift - wr 1 i <<< (w - m.shift)) = (o + (x' 1 i >>> m.shift - wr 1 i <<< (w - m.shift))) + (o &&& 1) by ring, hbase]
  conv_lhs => rw [hob]
  rw [← BitVec.ofInt_add]
  congr 1
  ring


/-- C54: truncation of a value whose sign agrees with the hint gives the value shifted to the right, up to one unit in the last place. -/
theorem c54_trunc (hO : OtOk ot Inv) (junk : ℕ → ℕ → Share w) (hw : 4 ≤ w) {m : Meta} {n : ℕ} (hs : m.shift < w) (hn : 0 < n)
    (h2 : NeedsTwo m → m.shift ≠ 1) (hh : ¬ (m.signed = true ∧ m.sign = .unknown ∧ m.heur = true)) (x : Share w)
    (ht : ∀ i, i < n → Truthful m.sign (decide (2 ^ (w - 1) ≤ (valA x i).toNat))) :
    Ok Inv (trunc ot junk m n x) fun z => ∀ i, i < n → ∃ e : ℤ, (e = -1 ∨ e = 0 ∨ e = 1) ∧
      valA z i = BitVec.ofInt w (plain m.signed (valA x i) / 2 ^ m.shift + e) := by
  unfold trunc
  split
  · rename_i h0
    refine Ok.pure fun i _ => ⟨0, by simp, ?_⟩
    rw [h0]
    unfold plain
    split <;> simp
  · rename_i h0
    refine Ok.enforce (by simpa using hs) ?_
    rw [if_neg (by simpa [and_assoc] using hh)]
    exact truncCore_ok hO junk hw (by omega) hs hn (fun h => by have := h2 h; omega) x ht

/-- C54: the heuristic does so for signed values of at most a quarter of the ring, without any hint. -/
theorem c54_trunc_heuristic (hO : OtOk ot Inv) (junk : ℕ → ℕ → Share w) (hw : 4 ≤ w) {m : Meta} {n : ℕ} (hs : m.shift + 2 ≤ w) (hn : 0 < n)
    (hm : m.signed = true) (hu : m.sign = .unknown) (hh : m.heur = true) (x : Share w)
    (hx : ∀ i, i < n → -2 ^ (w - 2) ≤ (valA x i).toInt ∧ (valA x i).toInt < 2 ^ (w - 2)) :
    Ok Inv (trunc ot junk m n x) fun z => ∀ i, i < n → ∃ e : ℤ, (e = -1 ∨ e = 0 ∨ e = 1) ∧
      valA z i = BitVec.ofInt w ((valA x i).toInt / 2 ^ m.shift + e) := by
  unfold trunc
  split
  · rename_i h0
    refine Ok.pure fun i _ => ⟨0, by simp, ?_⟩
    rw [h0]
    simp
  · rename_i h0
    refine Ok.enforce (by simp; omega) ?_
    rw [if_pos (by simp [hm, hu, hh])]
    refine Ok.enforce (by simpa using hs) ?_
    -- the moved values are not negative
    have hN : (2 : ℤ) ^ w = 4 * 2 ^ (w - 2) := by
      rw [show (4 : ℤ) = 2 ^ 2 by norm_num, ← pow_add]; congr 1; omega
    have hN1 : (2 : ℤ) ^ (w - 1) = 2 * 2 ^ (w - 2) := by rw [← pow_succ']; congr 1; omega
    have hN1' : 2 ^ (w - 1) = 2 * 2 ^ (w - 2) := by rw [← pow_succ']; congr 1; omega
    have hp : (0 : ℤ) < 2 ^ (w - 2) := by positivity
    let x' : Share w := fun p i => if p = 0 then x 0 i + (1 : BitVec w) <<< (w - 2) else x p i
    have hval : ∀ i, valA x' i = BitVec.ofInt w ((valA x i).toInt + 2 ^ (w - 2)) := by
      intro i
      have : valA x' i = valA x i + (1 : BitVec w) <<< (w - 2) := by
        simp only [valA, x', if_true, if_neg (show ¬ (1 : Fin 2) = 0 by decide)]
        ring
      rw [this, shl_one, BitVec.ofInt_add, BitVec.ofInt_toInt, ← ofInt_nat]
      push_cast
      rfl
    have hint : ∀ i, i < n → (valA x' i).toInt = (valA x i).toInt + 2 ^ (w - 2) := by
      intro i hi
      obtain ⟨h1, h2⟩ := hx i hi
      rw [hval, BitVec.toInt_ofInt_eq_self (by omega)]
      · rw [hN1]; omega
      · rw [hN1]; omega
    have hpos : ∀ i, i < n → ¬ 2 ^ (w - 1) ≤ (valA x' i).toNat := by
      intro i hi hge
      have h1 := hint i hi
      have h2 := (hx i hi).1
      rw [BitVec.toInt_eq_toNat_cond, if_neg (by rw [show 2 ^ w = 2 * 2 ^ (w - 1) by rw [← pow_succ']; congr 1; omega]; omega)] at h1
      have := (valA x' i).isLt
      have : ((valA x' i).toNat : ℤ) < (2 ^ w : ℕ) := by exact_mod_cast this
      omega
    refine Ok.bind (truncCore_ok hO junk hw (m := { m with sign := .positive, heur := false }) (Nat.pos_of_ne_zero h0) (by simp; omega) hn
      (by simp [NeedsTwo, hm]) x' fun i hi => by simpa [Truthful] using hpos i hi) fun z hz => Ok.pure fun i hi => ?_
    obtain ⟨e, he, hv⟩ := hz i hi
    refine ⟨e, he, ?_⟩
    have hz' : valA (fun p i => if p = 0 then z 0 i - (1 : BitVec w) <<< (w - 2 - m.shift) else z p i) i = valA z i - (1 : BitVec w) <<< (w - 2 - m.shift) := by
      simp only [valA, if_true, if_neg (show ¬ (1 : Fin 2) = 0 by decide)]
      ring
    refine Eq.trans hz' ?_
    rw [hv, shl_one, ← ofInt_nat]
    simp only [plain, hm, if_true]
    rw [hint i hi]
    have hsplit : (2 : ℤ) ^ (w - 2) = 2 ^ (w - 2 - m.shift) * 2 ^ m.shift := by rw [← pow_add]; congr 1; omega
    rw [hsplit, Int.add_mul_ediv_right _ _ (by positivity), sub_eq_add_neg, ← BitVec.ofInt_neg, ← BitVec.ofInt_add]
    congr 1
    push_cast
    ring

/-- C54: `TruncA` without a hint. -/
theorem c54_truncA (hO : OtOk ot Inv) (junk : ℕ → ℕ → Share w) (hw : 4 ≤ w) {bits : ℕ} (n : ℕ) (hs : bits + 2 ≤ w) (x : Share w)
    (hx : ∀ i, i < n → -2 ^ (w - 2) ≤ (valA x i).toInt ∧ (valA x i).toInt < 2 ^ (w - 2)) :
    Ok Inv (truncA ot junk bits .unknown n x) fun z => ∀ i, i < n → ∃ e : ℤ, (e = -1 ∨ e = 0 ∨ e = 1) ∧
      valA z i = BitVec.ofInt w ((valA x i).toInt / 2 ^ bits + e) := by
  unfold truncA
  split
  · exact Ok.pure fun i hi => by omega
  · exact c54_trunc_heuristic hO junk hw hs (by omega) rfl rfl rfl x hx

/-- C54: `TruncA` with a hint that is true. -/
theorem c54_truncA_hint (hO : OtOk ot Inv) (junk : ℕ → ℕ → Share w) (hw : 4 ≤ w) {bits : ℕ} (n : ℕ) (hs : bits < w) {sign : Sign} (hu : sign ≠ .unknown)
    (h2 : sign = .negative → bits ≠ 1) (x : Share w) (ht : ∀ i, i < n → Truthful sign (decide ((valA x i).toInt < 0))) :
    Ok Inv (truncA ot junk bits sign n x) fun z => ∀ i, i < n → ∃ e : ℤ, (e = -1 ∨ e = 0 ∨ e = 1) ∧
      valA z i = BitVec.ofInt w ((valA x i).toInt / 2 ^ bits + e) := by
  unfold truncA
  split
  · exact Ok.pure fun i hi => by omega
  · refine c54_trunc hO junk hw hs (by omega) ?_ (by simp [hu]) x fun i hi => ?_
    · rintro (h | ⟨_, h⟩ | ⟨h, _⟩)
      · exact absurd h hu
      · cases h
      · exact h2 h
    · have := ht i hi
      have hN : 2 ^ w = 2 * 2 ^ (w - 1) := by rw [← pow_succ']; congr 1; omega
      have e : ((valA x i).toInt < 0) ↔ 2 ^ (w - 1) ≤ (valA x i).toNat := by
        rw [BitVec.toInt_eq_toNat_cond]
        have := (valA x i).isLt
        have hz : ((2 ^ w : ℕ) : ℤ) = 2 * ((2 ^ (w - 1) : ℕ) : ℤ) := by rw [hN]; push_cast; rfl
        split <;> omega
      rwa [decide_eq_decide.2 e] at this

/-! ## the most significant bit and equality -/

theorem and_mask (v : BitVec w) {k : ℕ} (hk : k < w) : (v &&& ((1 : BitVec w) <<< k - 1)).toNat = v.toNat % 2 ^ k := by
  have : ((1 : BitVec w) <<< k - 1).toNat = 2 ^ k - 1 := by
    have hp : 0 < 2 ^ k := by positivity
    have hl : 2 ^ k < 2 ^ w := Nat.pow_lt_pow_right (by omega) hk
    rw [shl_one, BitVec.toNat_sub, BitVec.toNat_ofNat, Nat.mod_eq_of_lt hl, show (1 : BitVec w) = 1#w from rfl, BitVec.toNat_ofNat,
      Nat.mod_eq_of_lt (show 1 < 2 ^ w by omega), show 2 ^ w - 1 + 2 ^ k = 2 ^ k - 1 + 2 ^ w by omega, Nat.add_mod_right, Nat.mod_eq_of_lt (by omega)]
  rw [BitVec.toNat_and, this, Nat.and_two_pow_sub_one_eq_mod]

/-- C54: the low bit of the boolean shares is bit `nbits - 1` of the value (the top bit, if `nbits = 0`); for the top bit the other bits are zero. -/
theorem c54_msb (hO : OtOk ot Inv) (junk : ℕ → ℕ → Share w) (hw : 4 ≤ w) {nbits : ℕ} (n : ℕ) (hb : nbits ≤ w) (x : Share w) :
    Ok Inv (msbA2B ot junk nbits n x) fun z => ∀ i, i < n →
      (valB z i).getLsbD 0 = (valA x i).getLsbD ((if nbits = 0 then w else nbits) - 1) ∧
      (nbits = 0 ∨ nbits = w → valB z i = word ((valA x i).getLsbD (w - 1))) := by
  unfold msbA2B
  obtain ⟨nb, hnb⟩ : ∃ b, b = if nbits = 0 then w else nbits := ⟨_, rfl⟩
  simp only [← hnb]
  have h1 : 1 ≤ nb := by rw [hnb]; split <;> omega
  have h2 : nb ≤ w := by rw [hnb]; split <;> omega
  have hk : nb - 1 < w := by omega
  refine Ok.enforce (by simpa using h2) ?_
  by_cases hn : n = 0
  · rw [if_pos hn]
    exact Ok.pure fun i hi => by omega
  rw [if_neg hn]
  refine Ok.bind (c53_compare_full hO junk (radix := 4) (by omega) (by omega) (by decide) hw (by omega) true _) fun c hc => Ok.pure fun i hi => ?_
  have hci := hc i hi
  simp only [if_true, if_neg (show ¬ (1 : Fin 2) = 0 by decide), cmpB] at hci
  rw [and_mask _ hk, and_mask _ hk] at hci
  have hm : ((1 : BitVec w) <<< (nb - 1) - 1 - x 1 i).toNat % 2 ^ (nb - 1) = 2 ^ (nb - 1) - 1 - (x 1 i).toNat % 2 ^ (nb - 1) := by
    have hp : 0 < 2 ^ (nb - 1) := by positivity
    have hd : 2 ^ (nb - 1) ∣ 2 ^ w := Nat.pow_dvd_pow 2 hk.le
    have hone : ((1 : BitVec w) <<< (nb - 1) - 1).toNat = 2 ^ (nb - 1) - 1 := by
      have := and_mask ((1 : BitVec w) <<< (nb - 1) - 1) hk
      rw [BitVec.and_self] at this
      have h3 := and_mask (BitVec.allOnes w) hk
      rw [BitVec.allOnes_and, BitVec.toNat_allOnes] at h3
      rw [h3]
      obtain ⟨q, hq⟩ := hd
      have hq0 : 0 < q := by
        rcases Nat.eq_zero_or_pos q with h | h
        · rw [h] at hq; simp at hq
        · exact h
      obtain ⟨q, rfl⟩ : ∃ r, q = r + 1 := ⟨q - 1, by omega⟩
      rw [hq, Nat.mul_add, Nat.mul_one, show 2 ^ (nb - 1) * q + 2 ^ (nb - 1) - 1 = 2 ^ (nb - 1) - 1 + 2 ^ (nb - 1) * q by omega,
        Nat.add_mul_mod_self_left, Nat.mod_eq_of_lt (by omega)]
    rw [BitVec.toNat_sub, hone, Nat.mod_mod_of_dvd _ hd]
    have hx := (x 1 i).isLt
    have hr := Nat.mod_lt (x 1 i).toNat hp
    have hz : (((2 ^ w - (x 1 i).toNat + (2 ^ (nb - 1) - 1) : ℕ) : ℤ)) = ((2 ^ (nb - 1) - 1 - (x 1 i).toNat % 2 ^ (nb - 1) : ℕ) : ℤ) + 2 ^ (nb - 1) * ((2 ^ w / 2 ^ (nb - 1) : ℕ) - ((x 1 i).toNat / 2 ^ (nb - 1) : ℕ) : ℤ) := by
      have e1 := Nat.div_add_mod (x 1 i).toNat (2 ^ (nb - 1))
      have e2 := Nat.mul_div_cancel' hd
      have e1' := congrArg (fun k : ℕ => (k : ℤ)) e1
      have e2' := congrArg (fun k : ℕ => (k : ℤ)) e2
      simp only [Nat.cast_add, Nat.cast_mul, Nat.cast_pow, Nat.cast_ofNat] at e1' e2'
      rw [mul_sub, e2', Nat.cast_add, Nat.cast_sub hx.le, Nat.cast_sub (by omega), Nat.cast_sub (by omega), Nat.cast_sub (by omega)]
      simp only [Nat.cast_pow, Nat.cast_ofNat, Nat.cast_one]
      linarith
    have := congrArg (fun k : ℤ => k % 2 ^ (nb - 1)) hz
    simp only [Int.add_mul_emod_self_left] at this
    have h4 : ((2 ^ (nb - 1) : ℕ) : ℤ) = 2 ^ (nb - 1) := by push_cast; rfl
    rw [← h4] at this
    have h5 : (2 ^ w - (x 1 i).toNat + (2 ^ (nb - 1) - 1)) % 2 ^ (nb - 1) = (2 ^ (nb - 1) - 1 - (x 1 i).toNat % 2 ^ (nb - 1)) % 2 ^ (nb - 1) := by exact_mod_cast this
    rw [h5, Nat.mod_eq_of_lt (by omega)]
  rw [hm] at hci
  have hcarry : decide (2 ^ (nb - 1) - 1 - (x 1 i).toNat % 2 ^ (nb - 1) < (x 0 i).toNat % 2 ^ (nb - 1)) = BitVec.carry (nb - 1) (x 0 i) (x 1 i) false := by
    unfold BitVec.carry
    have hp : 0 < 2 ^ (nb - 1) := by positivity
    have hr := Nat.mod_lt (x 1 i).toNat hp
    congr 1
    exact propext ⟨fun h => by simp; omega, fun h => by simp at h; omega⟩
  have hv : valB (fun p i => c p i ^^^ x p i >>> (nb - 1)) i = word (BitVec.carry (nb - 1) (x 0 i) (x 1 i) false) ^^^ (x 0 i >>> (nb - 1) ^^^ x 1 i >>> (nb - 1)) := by
    have : valB (fun p i => c p i ^^^ x p i >>> (nb - 1)) i = valB c i ^^^ (x 0 i >>> (nb - 1) ^^^ x 1 i >>> (nb - 1)) := by
      simp only [valB]
      apply BitVec.eq_of_getLsbD_eq
      intro k _
      simp only [BitVec.getLsbD_xor]
      cases (c 0 i).getLsbD k <;> cases (c 1 i).getLsbD k <;> cases (x 0 i >>> (nb - 1)).getLsbD k <;> cases (x 1 i >>> (nb - 1)).getLsbD k <;> rfl
    rw [this]
    congr 1
    rw [← hcarry]
    exact hci
  have hadd : (valA x i).getLsbD (nb - 1) = ((x 0 i).getLsbD (nb - 1) ^^ ((x 1 i).getLsbD (nb - 1) ^^ BitVec.carry (nb - 1) (x 0 i) (x 1 i) false)) := by
    simp only [valA]
    exact BitVec.getLsbD_add hk _ _
  have hbit : (valB (fun p i => c p i ^^^ x p i >>> (nb - 1)) i).getLsbD 0 = (valA x i).getLsbD (nb - 1) := by
    rw [hv, hadd, BitVec.getLsbD_xor, BitVec.getLsbD_xor, BitVec.getLsbD_ushiftRight, BitVec.getLsbD_ushiftRight, word_bit (by omega)]
    simp only [Nat.add_zero]
    cases BitVec.carry (nb - 1) (x 0 i) (x 1 i) false <;> cases (x 0 i).getLsbD (nb - 1) <;> cases (x 1 i).getLsbD (nb - 1) <;> simp
  refine ⟨hbit, fun hfull => ?_⟩
  have hnw : nb = w := by rw [hnb]; rcases hfull with h | h <;> simp [h]
  rw [hnw] at hbit hv ⊢
  apply BitVec.eq_of_getLsbD_eq
  intro k hk'
  rcases Nat.eq_zero_or_pos k with rfl | hk0
  · rw [hbit, word_bit (by omega)]
    simp
  · rw [hv, BitVec.getLsbD_xor, BitVec.getLsbD_xor, BitVec.getLsbD_ushiftRight, BitVec.getLsbD_ushiftRight, word_bit (by omega), word_bit (by omega),
      BitVec.getLsbD_of_ge _ _ (by omega), BitVec.getLsbD_of_ge _ _ (by omega)]
    simp [show k ≠ 0 by omega]

/-- C54: `EqualAA` compares the low `nbits` bits of the values (all of them, if `nbits = 0`). -/
theorem c54_equalAA (hO : OtOk ot Inv) (hw : 4 ≤ w) {nbits : ℕ} (n : ℕ) (hb : nbits ≤ w) (x y : Share w) :
    Ok Inv (equalAA ot nbits n x y) fun z => ∀ i, i < n →
      valB z i = word (decide ((valA x i).toNat % 2 ^ (if nbits = 0 then w else nbits) = (valA y i).toNat % 2 ^ (if nbits = 0 then w else nbits))) := by
  unfold equalAA
  obtain ⟨nb, hnb⟩ : ∃ b, b = if nbits = 0 then w else nbits := ⟨_, rfl⟩
  simp only [← hnb]
  have h1 : 1 ≤ nb := by rw [hnb]; split <;> omega
  have h2 : nb ≤ w := by rw [hnb]; split <;> omega
  refine Ok.enforce (by simpa using h2) ?_
  by_cases hn : n = 0
  · rw [if_pos hn]
    exact Ok.pure fun i hi => by omega
  rw [if_neg hn]
  refine Ok.imp (c53_equal hO (radix := 4) (bw := nb) (by omega) (by omega) (by decide) hw (by omega) _) fun z hz i hi => ?_
  have hzi := hz i hi
  simp only [if_true, if_neg (show ¬ (1 : Fin 2) = 0 by decide), if_neg (show ¬ nb = 0 by omega)] at hzi
  rw [hzi]
  congr 2
  refine propext ⟨fun h => ?_, fun h => ?_⟩
  · have h : Cong nb (x 0 i - y 0 i) (y 1 i - x 1 i) := h
    have := (h.add h2 (Cong.refl nb (y 0 i + x 1 i)))
    rw [show x 0 i - y 0 i + (y 0 i + x 1 i) = x 0 i + x 1 i by ring, show y 1 i - x 1 i + (y 0 i + x 1 i) = y 0 i + y 1 i by ring] at this
    exact this
  · have h : Cong nb (x 0 i + x 1 i) (y 0 i + y 1 i) := h
    have := (h.sub h2 (Cong.refl nb (y 0 i + x 1 i)))
    rw [show x 0 i + x 1 i - (y 0 i + x 1 i) = x 0 i - y 0 i by ring, show y 0 i + y 1 i - (y 0 i + x 1 i) = y 1 i - x 1 i by ring] at this
    exact this

/-- C54: `EqualAP` compares with public values. -/
theorem c54_equalAP (hO : OtOk ot Inv) (hw : 4 ≤ w) {nbits : ℕ} (n : ℕ) (hb : nbits ≤ w) (x : Share w) (y : ℕ → BitVec w) :
    Ok Inv (equalAP ot nbits n x y) fun z => ∀ i, i < n →
      valB z i = word (decide ((valA x i).toNat % 2 ^ (if nbits = 0 then w else nbits) = (y i).toNat % 2 ^ (if nbits = 0 then w else nbits))) := by
  unfold equalAP
  refine Ok.imp (c54_equalAA hO hw n hb x _) fun z hz i hi => ?_
  have : valA (fun p i => if p = (0 : Fin 2) then 0 else y i) i = y i := by simp [valA]
  rw [hz i hi, this]

/-! ## the kernels that call one protocol -/

/-- C54: `MulA1B`, also of an empty array. -/
theorem c54_mulA1B (hO : OtOk ot Inv) (hw : 0 < w) (n : ℕ) (a b : Share w) :
    Ok Inv (mulA1B ot n a b) fun z => ∀ i, i < n → valA z i = if (valB b i).getLsbD 0 then valA a i else 0 := by
  unfold mulA1B
  split
  · exact Ok.pure fun i hi => by omega
  · exact c52_multiplexer hO hw (by omega) a b

/-- C54: `MulA1BV`, also of an empty array. -/
theorem c54_mulA1BV (hO : OtOk ot Inv) (hw : 0 < w) (owner : Fin 2) (n : ℕ) (a : Share w) (b : ℕ → BitVec w) :
    Ok Inv (mulA1BV ot owner n a b) fun z => ∀ i, i < n → valA z i = if (b i).getLsbD 0 then valA a i else 0 := by
  unfold mulA1BV
  split
  · exact Ok.pure fun i hi => by omega
  · exact c52_privateMulx hO hw owner (by omega) a b

/-- C54: `AndBB`, also of an empty array. -/
theorem c54_andBB (hO : OtOk ot Inv) {nbits : ℕ} (n : ℕ) (h1 : 1 ≤ nbits) (hw : nbits ≤ w) (a b : Share w) :
    Ok Inv (andBB ot nbits n a b) fun z => ∀ i, i < n → valB z i = lowBits nbits (valB a i &&& valB b i) := by
  unfold andBB
  split
  · exact Ok.pure fun i hi => by omega
  · exact c52_and hO (by omega) h1 hw a b

/-- C54: `B2A`, also of an empty array. -/
theorem c54_b2a (hO : OtOk ot Inv) (hw : 0 < w) {nbits : ℕ} (n : ℕ) (hb : nbits ≤ w) (x : Share w) :
    Ok Inv (b2aKernel ot nbits n x) fun z => ∀ i, i < n → valA z i = lowBits (if nbits = 0 then 1 else nbits) (valB x i) := by
  unfold b2aKernel
  split
  · exact Ok.pure fun i hi => by omega
  · exact c52_b2a hO hw hb (by omega) x

/-! ## where the code refuses or errs -/

/-- A right shift by one with the hint "negative" throws, whatever the operand. -/
theorem c54_truncA_negative_one (junk : ℕ → ℕ → Share w) {n : ℕ} (hn : 0 < n) (x : Share w) (s : σ) : truncA ot junk 1 .negative n x s = none := by
  have key : ∀ y : Share w, msb0ToWrap ot 1 n y s = none := by
    intro y
    unfold msb0ToWrap
    simp only [Bind.bind, StateT.bind]
    cases ot.randBit n s with
    | none => rfl
    | some r =>
      simp only [Option.bind_some]
      rcases ot.cmcc 0 2 1 n _ _ r.2 with _ | t
      · rfl
      · simp only [Option.bind_some, c52_b2aSized_one]
  unfold truncA trunc truncCore computeWrap
  rw [if_neg (by omega), if_neg (by decide)]
  by_cases h : 1 < w
  · simp [enforce, h, Bind.bind, StateT.bind, key, pure, StateT.pure]
  · simp [enforce, h, Bind.bind, StateT.bind, failure, StateT.failure, Alternative.failure]

/-- So does the shift by all but the sign bit if the sign is not given: the heuristic shifts a word by a negative amount. -/
theorem c54_truncA_all_but_one (junk : ℕ → ℕ → Share w) (hw : 1 < w) {n : ℕ} (hn : 0 < n) (x : Share w) (s : σ) : truncA ot junk (w - 1) .unknown n x s = none := by
  unfold truncA trunc
  rw [if_neg (by omega), if_neg (by simp; omega)]
  have h1 : w - 1 < w := by omega
  have h2 : ¬ w - 1 + 2 ≤ w := by omega
  simp [enforce, h1, h2, Bind.bind, StateT.bind, failure, StateT.failure, Alternative.failure, pure, StateT.pure]

/-! ## examples -/

/-- additive shares of a list of integers -/
def trX (v : List ℤ) : Share 16 := fun p i => if p = 0 then BitVec.ofNat 16 (12345 * i + 40000) else BitVec.ofInt 16 (v.getD i 0) - BitVec.ofNat 16 (12345 * i + 40000)

/-- −1000, 1000 and 12345, shifted by 4: exactly −62.5, 62.5 and 771.56… -/
example : (List.map (fun i => peek (truncA (idealOt 16) (fun _ _ _ _ => 0) 4 .unknown 3 (trX [-1000, 1000, 12345])) 5 (fun z => valA z i)) [0, 1, 2]) =
    [some (65536 - 63), some 62, some 772] := by decide +kernel
example : (valA (trX [-1000, 1000, 12345]) 0).toInt = -1000 ∧ (valA (trX [-1000, 1000, 12345]) 2).toInt = 12345 := by decide +kernel
/-- with the hint, for large values -/
example : peek (truncA (idealOt 16) (fun _ _ _ _ => 0) 4 .negative 1 (trX [-32000])) 5 (fun z => valA z 0) = some (65536 - 2000) := by decide +kernel
example : peek (truncA (idealOt 16) (fun _ _ _ _ => 0) 4 .positive 1 (trX [32000])) 5 (fun z => valA z 0) = some 2000 := by decide +kernel
/-- unsigned, no hint -/
example : peek (trunc (idealOt 16) (fun _ _ _ _ => 0) ⟨.unknown, false, 4, true⟩ 1 (trX [-32000])) 5 (fun z => valA z 0) = some ((65536 - 32000) / 16) := by decide +kernel
/-- Both errors occur: the shares decide whether the result is one too small or one too large. -/
theorem c54_error_occurs :
    peek (truncA (idealOt 16) (fun _ _ _ _ => 0) 4 .positive 1 fun p _ => if p = 0 then 15 else 1) 5 (fun z => valA z 0) = some 0 ∧
    peek (truncA (idealOt 16) (fun _ _ _ _ => 0) 4 .positive 1 fun p _ => if p = 0 then 16 else 0) 5 (fun z => valA z 0) = some 2 := by decide +kernel
/-- A hint that is false gives a wrong result. -/
theorem c54_false_hint : peek (truncA (idealOt 16) (fun _ _ _ _ => 0) 4 .positive 1 fun p _ => if p = 0 then 0x7fff else -1000 - 0x7fff) 5 (fun z => valA z 0) = some 4033 := by decide +kernel
/-- Beyond a quarter of the ring the heuristic is wrong. -/
theorem c54_heuristic_beyond : peek (truncA (idealOt 16) (fun _ _ _ _ => 0) 4 .unknown 1 fun p _ => if p = 0 then 0x4000 else 20000 - 0x4000) 5
    (fun z => valA z 0) = some 62690 := by decide +kernel

example : (List.map (fun i => peek (msbA2B (idealOt 16) (fun _ _ _ _ => 0) 0 3 (trX [-1000, 1000, -1])) 5 (fun z => valB z i)) [0, 1, 2]) = [some 1, some 0, some 1] := by
  decide +kernel
/-- bit 3 of 12345 is one; the other bits of the result are not zero -/
theorem c54_msb_garbage : peek (msbA2B (idealOt 16) (fun _ _ _ _ => 0) 4 1 (trX [12345])) 5 (fun z => valB z 0) = some 503 := by decide +kernel
example : (List.map (fun i => peek (equalAP (idealOt 16) 0 2 (trX [-1000, 1000]) fun _ => 1000) 5 (fun z => valB z i)) [0, 1]) = [some 0, some 1] := by decide +kernel
example : peek (equalAA (idealOt 16) 3 1 (trX [13]) (trX [5])) 5 (fun z => valB z 0) = some 1 := by decide +kernel
example : peek (mulA1B (idealOt 16) 2 (trX [-1000, 1000]) otX) 5 (fun z => valA z 1) = some (if (valB otX 1).getLsbD 0 then 1000 else 0) := by decide +kernel

end Spu.Props

import Verif.Lemmas.CheetahCmp
import Verif.Props.CheetahOtIdeal

set_option autoImplicit false

/-!
# C53: comparison and equality of cheetah
-/

namespace Spu.Props
open Spu.Model.Circ Spu.Model.CheetahZip Spu.Model.CheetahOt Spu.Model.CheetahCmp Spu.Spec Spu.Lemmas

variable {σ : Type} {w : ℕ} {ot : Ot σ w} {Inv : σ → Prop}

theorem digit_toNat {radix : ℕ} (h8 : radix ≤ 8) (v : BitVec w) (s : ℕ) :
    ((lowBits radix (v >>> s)).setWidth 8).toNat = v.toNat / 2 ^ s % 2 ^ radix := by
  rw [BitVec.toNat_setWidth, lowBits_toNat, BitVec.toNat_ushiftRight, Nat.shiftRight_eq_div_pow]
  exact Nat.mod_eq_of_lt (lt_of_lt_of_le (Nat.mod_lt _ (by positivity)) (Nat.pow_le_pow_right (by omega) h8))

theorem word_set8 (hw : 0 < w) (b : Bool) : (word (w := 8) b).setWidth w = word (w := w) b := by
  apply BitVec.eq_of_getLsbD_eq
  intro k hk
  rw [BitVec.getLsbD_setWidth, word_bit (by omega), word_bit hw]
  simp [hk]

/-- the two bits of a leaf message -/
theorem leaf_bits (digit rc re : BitVec 8) (gt : Bool) (k : ℕ) :
    let m : BitVec 8 := BitVec.ofNat 8 ((leafMsg digit (rc &&& 1) (re &&& 1) gt k).toNat % 2 ^ 2);
    (rc &&& (1 : BitVec 8)) ^^^ (m &&& 1) = word (cmpB gt digit.toNat k) ∧ (re &&& (1 : BitVec 8)) ^^^ (m >>> 1 &&& (1 : BitVec 8)) = word (decide (digit.toNat = k)) := by
  have key : ∀ (a b : BitVec 8), (a = 0 ∨ a = 1) → (b = 0 ∨ b = 1) → ∀ c e : Bool,
      let m : BitVec 8 := BitVec.ofNat 8 (((a ^^^ (if c = true then (1 : BitVec 8) else 0)) ||| (b ^^^ (if e = true then (1 : BitVec 8) else 0)) <<< 1).toNat % 2 ^ 2)
      a ^^^ (m &&& 1) = word c ∧ b ^^^ (m >>> 1 &&& (1 : BitVec 8)) = word e := by
    rintro a b (rfl | rfl) (rfl | rfl) <;> decide
  have := key (rc &&& 1) (re &&& 1) (bit01 rc (by omega)) (bit01 re (by omega)) (cmpB gt digit.toNat k) (decide (digit.toNat = k))
  unfold leafMsg
  unfold cmpB at this ⊢
  by_cases h : digit.toNat = k
  · rw [if_pos h]
    rw [decide_eq_true h, if_pos rfl] at this
    rw [decide_eq_true h]
    exact this
  · rw [if_neg h]
    rw [decide_eq_false h, if_neg Bool.false_ne_true] at this
    rw [decide_eq_false h]
    exact this

theorem leaves_ok (hO : OtOk ot Inv) {radix nd n : ℕ} (h1 : 1 ≤ radix) (h8 : radix ≤ 8) (hN : 2 ^ radix ∈ otSizes) (hw : radix ≤ w)
    (hn : 0 < n) (hd : 0 < nd) (gt : Bool) (x : Share w) :
    Ok Inv (leaves ot radix nd n gt x) fun z => ∀ i, i < n → ∀ j, j < nd →
      let X := (x 0 i).toNat / (2 ^ radix) ^ j % 2 ^ radix
      let Y := (x 1 i).toNat / (2 ^ radix) ^ j % 2 ^ radix
      valB z.1 (i * nd + j) = word (cmpB gt X Y) ∧ valB z.2 (i * nd + j) = word (decide (X = Y)) := by
  unfold leaves
  obtain ⟨m, hm, hl⟩ := mask_low (w := w) h1 hw
  refine Ok.liftO hm ?_
  have dig : ∀ p t, (digits radix nd m (x p) t).toNat = (x p (t / nd)).toNat / (2 ^ radix) ^ (t % nd) % 2 ^ radix := by
    intro p t
    unfold digits
    rw [hl, digit_toNat h8, ← Nat.pow_mul, Nat.mul_comm]
  refine Ok.bind (hO.fill _) fun rc _ => Ok.bind (hO.fill _) fun re _ => ?_
  refine Ok.enforce ?_ ?_
  · rw [List.all_eq_true]
    intro t _
    rw [decide_eq_true_eq, dig]
    exact (Nat.mod_lt _ (by positivity)).le
  refine Ok.bind (hO.cmcc 0 _ _ hN (by omega) (by omega) (Nat.mul_pos hn hd) ?_) fun r hr => ?_
  · intro t _
    rw [dig]
    exact Nat.mod_lt _ (by positivity)
  refine Ok.pure fun i hi j hj => ?_
  have ht := idx_lt hi hj
  have hlt : (digits radix nd m (x 1) (i * nd + j)).toNat < 2 ^ radix := by
    rw [dig]; exact Nat.mod_lt _ (by positivity)
  have hr' := hr _ ht
  simp only [row_div hlt, row_mod hlt] at hr'
  have hb := leaf_bits (digits radix nd m (x 0) (i * nd + j)) (rc (i * nd + j)) (re (i * nd + j)) gt (digits radix nd m (x 1) (i * nd + j)).toNat
  simp only at hb
  rw [← hr'] at hb
  simp only [dig, row_div hj, row_mod hj] at hb
  obtain ⟨hb1, hb2⟩ := hb
  constructor
  · simp only [valB]
    rw [if_pos trivial, if_neg (by decide), ← BitVec.setWidth_xor, hb1, word_set8 (by omega)]
  · simp only [valB]
    rw [if_pos trivial, if_neg (by decide), ← BitVec.setWidth_xor, hb2, word_set8 (by omega)]

/-- a one-bit AND on words of truth values -/
theorem and_word (hO : OtOk ot Inv) (hw : 0 < w) {n : ℕ} (hn : 0 < n) {x y : Share w} {a b : ℕ → Bool}
    (hx : ∀ i, i < n → valB x i = word (a i)) (hy : ∀ i, i < n → valB y i = word (b i)) :
    Ok Inv (bitwiseAnd ot 1 n x y) fun z => ∀ i, i < n → valB z i = word (a i && b i) := by
  refine Ok.imp (c52_and hO hn (by omega) (by omega) x y) fun z hz i hi => ?_
  rw [hz i hi, hx i hi, hy i hi, word_and hw]

theorem corr_word (hO : OtOk ot Inv) (hw : 0 < w) {n : ℕ} (hn : 0 < n) {x y0 y1 : Share w} {a b c : ℕ → Bool}
    (hx : ∀ i, i < n → valB x i = word (a i)) (hy : ∀ i, i < n → valB y0 i = word (b i)) (hy' : ∀ i, i < n → valB y1 i = word (c i)) :
    Ok Inv (corrAnd ot n x y0 y1) fun z => ∀ i, i < n → valB z.1 i = word (a i && b i) ∧ valB z.2 i = word (a i && c i) := by
  refine Ok.imp (c52_corrAnd hO hw hn x y0 y1) fun z hz i hi => ?_
  rw [(hz i hi).1, (hz i hi).2, hx i hi, hy i hi, hy' i hi, word_and hw, word_and hw]
  exact ⟨rfl, rfl⟩

theorem valB_xor (x y : Share w) (t : ℕ) : valB (fun p t => x p t ^^^ y p t) t = valB x t ^^^ valB y t := by
  simp only [valB]
  ac_rfl

/-- truth values laid out row by row: `a r c` at `r * cols + c` -/
theorem flat {P : ℕ → Prop} {n cols : ℕ} (h : ∀ r, r < n → ∀ c, c < cols → P (r * cols + c)) {t : ℕ} (ht : t < n * cols) : P t := by
  have hc : 0 < cols := by
    rcases Nat.eq_zero_or_pos cols with h | h
    · subst h; simp at ht
    · exact h
  have := h (t / cols) ((Nat.div_lt_iff_lt_mul hc).2 ht) (t % cols) (Nat.mod_lt _ hc)
  rwa [Nat.div_add_mod'] at this

/-! ## the tree without equality -/

theorem fullLoop_ok (hO : OtOk ot Inv) (hw : 0 < w) (junk : ℕ → Share w) {n nd : ℕ} (hn : 0 < n) :
    ∀ (k m i : ℕ) (cmp eq : Share w) (f : ℕ → ℕ → Bool × Bool), m ≤ k → 1 ≤ i → nd / 2 ^ (i - 1) = 2 ^ m →
      (∀ r, r < n → ∀ c, c < 2 ^ m → valB cmp (r * 2 ^ m + c) = word (f r c).1) →
      (∀ r, r < n → ∀ c, c < 2 ^ m → 1 ≤ c → valB eq (r * 2 ^ m + c) = word (f r c).2) →
      Ok Inv (fullLoop ot junk n nd k i cmp eq) fun z => ∀ r, r < n → valB z r = word (cmb (f r) 0 (2 ^ m)).1 := by
  intro k
  induction k with
  | zero =>
    intro m i cmp eq f hm hi hd hc he
    obtain rfl : m = 0 := by omega
    refine Ok.pure fun r hr => ?_
    have := hc r hr 0 (by simp)
    rw [Nat.pow_zero, Nat.mul_one, Nat.add_zero] at this
    rw [this, Nat.pow_zero, cmb_one]
  | succ k ih =>
    intro m i cmp eq f hm hi hd hc he
    unfold fullLoop
    simp only [hd]
    rcases m with _ | m
    · rw [if_pos (Nat.pow_zero 2)]
      refine Ok.pure fun r hr => ?_
      have := hc r hr 0 (by simp)
      rw [Nat.pow_zero, Nat.mul_one, Nat.add_zero] at this
      rw [this, Nat.pow_zero, cmb_one]
    have hp : 0 < 2 ^ m := by positivity
    have h2 : 2 ^ (m + 1) = 2 * 2 ^ m := by rw [pow_succ]; ring
    obtain ⟨q, hq⟩ : ∃ q, q = 2 ^ m := ⟨_, rfl⟩
    have hd' : nd / 2 ^ (i + 1 - 1) = 2 ^ m := by
      rw [show i + 1 - 1 = (i - 1) + 1 by omega, pow_succ, ← Nat.div_div_eq_div_mul, hd, h2, Nat.mul_div_cancel_left _ (by omega)]
    rw [if_neg (by omega)]
    have lo : ∀ r c, 2 * (r * q + c) = r * 2 ^ (m + 1) + 2 * c := by intro r c; rw [h2, hq]; ring
    have hi' : ∀ r c, 2 * (r * q + c) + 1 = r * 2 ^ (m + 1) + (2 * c + 1) := by intro r c; rw [lo]; ring
    -- the next level
    let f' : ℕ → ℕ → Bool × Bool := fun r c => comb (f r (2 * c)) (f r (2 * c + 1))
    have hf' : ∀ r, cmb (f r) 0 (2 ^ (m + 1)) = cmb (f' r) 0 (2 ^ m) := by
      intro r; rw [h2]; exact (cmb_pair (f r) _).symm
    by_cases hm0 : m = 0
    · subst hm0
      rw [if_pos (by norm_num)]
      have hcnt : 2 ^ (0 + 1) * n / 2 = n := by omega
      rw [hcnt]
      refine Ok.bind (and_word hO hw hn (a := fun r => (f r 0).1) (b := fun r => (f r 1).2) ?_ ?_) fun cw hcw => ?_
      · intro r hr
        have := hc r hr 0 (by norm_num)
        rw [show r * 2 ^ (0 + 1) + 0 = 2 * r by omega] at this
        exact this
      · intro r hr
        have := he r hr 1 (by norm_num) (by omega)
        rw [show r * 2 ^ (0 + 1) + 1 = 2 * r + 1 by omega] at this
        exact this
      · refine Ok.imp (ih 0 (i + 1) _ eq f' (by omega) (by omega) hd' ?_ (fun r hr c hc0 h1 => absurd hc0 (by simp; omega))) fun z hz r hr => ?_
        · intro r hr c hc0
          obtain rfl : c = 0 := by simpa using hc0
          rw [Nat.pow_zero, Nat.mul_one, Nat.add_zero, valB_xor, hcw r hr]
          have := hc r hr 1 (by norm_num)
          rw [show r * 2 ^ (0 + 1) + 1 = 2 * r + 1 by omega] at this
          rw [show valB (fun p t => cmp p (2 * t + 1)) r = valB cmp (2 * r + 1) from rfl, this, word_xor hw]
          simp only [f', comb]
          rw [Bool.xor_comm, Bool.and_comm]
        · rw [hz r hr, hf']
    · rw [if_neg (by
        have : 2 ≤ 2 ^ m := by
          calc 2 = 2 ^ 1 := rfl
            _ ≤ 2 ^ m := Nat.pow_le_pow_right (by omega) (by omega)
        omega)]
      have hq2 : 2 ≤ q := by
        rw [hq]
        calc 2 = 2 ^ 1 := rfl
          _ ≤ 2 ^ m := Nat.pow_le_pow_right (by omega) (by omega)
      have hncol : 2 ^ (m + 1) / 2 = q := by omega
      simp only [hncol]
      -- the sub-array without column 0
      have sub : ∀ (a : Share w) (g : ℕ → ℕ → Bool), (∀ r, r < n → ∀ c, c < q → 1 ≤ c → valB a (r * q + c) = word (g r c)) → ∀ t, t < n * (q - 1) →
          valB (fun p t => a p (t / (q - 1) * q + (t % (q - 1) + 1))) t = word (g (t / (q - 1)) (t % (q - 1) + 1)) := by
        intro a g ha t ht
        have h1 : t % (q - 1) < q - 1 := Nat.mod_lt _ (by omega)
        exact ha _ ((Nat.div_lt_iff_lt_mul (by omega)).2 ht) _ (by omega) (by omega)
      refine Ok.bind (and_word hO hw hn (a := fun r => (f r 1).2) (b := fun r => (f r 0).1) ?_ ?_) fun c0 hc0 => ?_
      · intro r hr
        have := he r hr 1 (by omega) (by omega)
        rwa [← hi' r 0, Nat.add_zero] at this
      · intro r hr
        have := hc r hr 0 (by omega)
        rwa [← lo r 0, Nat.add_zero] at this
      refine Ok.bind (corr_word hO hw (Nat.mul_pos hn (by omega)) (a := fun t => (f (t / (q - 1)) (2 * (t % (q - 1) + 1) + 1)).2)
        (b := fun t => (f (t / (q - 1)) (2 * (t % (q - 1) + 1))).1) (c := fun t => (f (t / (q - 1)) (2 * (t % (q - 1) + 1))).2) ?_ ?_ ?_) ?_
      · refine sub (fun p t => eq p (2 * t + 1)) (fun r c => (f r (2 * c + 1)).2) fun r hr c hcq h1 => ?_
        have := he r hr (2 * c + 1) (by omega) (by omega)
        rwa [← hi'] at this
      · refine sub (fun p t => cmp p (2 * t)) (fun r c => (f r (2 * c)).1) fun r hr c hcq h1 => ?_
        have := hc r hr (2 * c) (by omega)
        rwa [← lo] at this
      · refine sub (fun p t => eq p (2 * t)) (fun r c => (f r (2 * c)).2) fun r hr c hcq h1 => ?_
        have := he r hr (2 * c) (by omega) (by omega)
        rwa [← lo] at this
      rintro ⟨nc, ne⟩ hcn
      have at_sub : ∀ r, r < n → ∀ c, c < q → 1 ≤ c → r * (q - 1) + c - 1 < n * (q - 1) ∧ (r * (q - 1) + c - 1) / (q - 1) = r ∧
          (r * (q - 1) + c - 1) % (q - 1) + 1 = c := by
        intro r hr c hcq h1
        have e : r * (q - 1) + c - 1 = r * (q - 1) + (c - 1) := by omega
        rw [e, row_div (by omega), row_mod (by omega)]
        exact ⟨idx_lt hr (by omega), rfl, by omega⟩
      refine Ok.imp (ih m (i + 1) _ _ f' (by omega) (by omega) hd' ?_ ?_) fun z hz r hr => ?_
      · intro r hr c hcq
        rw [← hq] at hcq ⊢
        have hrhs := hc r hr (2 * c + 1) (by omega)
        rw [← hi'] at hrhs
        rw [valB_xor]
        rw [show valB (fun p t => cmp p (2 * t + 1)) (r * q + c) = valB cmp (2 * (r * q + c) + 1) from rfl, hrhs]
        have : valB (fun p t => if t % q = 0 then c0 p (t / q) else nc p (t / q * (q - 1) + t % q - 1)) (r * q + c) =
            word ((f r (2 * c + 1)).2 && (f r (2 * c)).1) := by
          simp only [valB, row_div hcq, row_mod hcq]
          by_cases h0 : c = 0
          · rw [if_pos h0, if_pos h0, h0]
            exact hc0 r hr
          · rw [if_neg h0, if_neg h0]
            obtain ⟨h1, h2', h3⟩ := at_sub r hr c hcq (by omega)
            have := (hcn _ h1).1
            simp only [h2', h3] at this
            exact this
        rw [this, word_xor hw]
        simp only [f', comb]
        rw [Bool.xor_comm]
      · intro r hr c hcq h1
        rw [← hq] at hcq ⊢
        simp only [valB, row_div hcq, row_mod hcq]
        rw [if_neg (by omega), if_neg (by omega)]
        obtain ⟨h1', h2', h3⟩ := at_sub r hr c hcq h1
        have := (hcn _ h1').2
        simp only [h2', h3] at this
        exact this
      · rw [hz r hr, hf']


theorem full_ok (hO : OtOk ot Inv) (hw : 0 < w) (junk : ℕ → Share w) {n : ℕ} (hn : 0 < n) (L : ℕ) {cmp eq : Share w} {f : ℕ → ℕ → Bool × Bool}
    (hc : ∀ r, r < n → ∀ c, c < 2 ^ L → valB cmp (r * 2 ^ L + c) = word (f r c).1)
    (he : ∀ r, r < n → ∀ c, c < 2 ^ L → 1 ≤ c → valB eq (r * 2 ^ L + c) = word (f r c).2) :
    Ok Inv (full ot junk n (2 ^ L) cmp eq) fun z => ∀ r, r < n → valB z r = word (cmb (f r) 0 (2 ^ L)).1 := by
  unfold full
  refine Ok.enforce (by rw [singleBit_pow]; simp) ?_
  exact fullLoop_ok hO hw junk hn _ L 1 cmp eq f (Nat.lt_two_pow_self).le (le_refl _) (by simp) hc he

theorem bitFloor_spec {k : ℕ} (h : 0 < k) : bitFloor k ≤ k ∧ k < 2 * bitFloor k := by
  unfold bitFloor
  constructor
  · exact Nat.log2_self_le (by omega)
  · have := Nat.lt_log2_self (n := k)
    rw [pow_succ] at this
    omega

theorem travLoop_ok (hO : OtOk ot Inv) (hw : 0 < w) (junk : ℕ → ℕ → Share w) {n nd : ℕ} (hn : 0 < n) {cmp eq : Share w} {f : ℕ → ℕ → Bool × Bool}
    (hc : ∀ r, r < n → ∀ c, c < nd → valB cmp (r * nd + c) = word (f r c).1)
    (he : ∀ r, r < n → ∀ c, c < nd → valB eq (r * nd + c) = word (f r c).2) :
    ∀ (k u : ℕ) (sub : Share w), 1 ≤ u → u ≤ nd → nd - u ≤ k →
      (∀ r, r < n → valB sub r = word (cmb (f r) 0 u).1) →
      Ok Inv (travLoop ot junk n nd cmp eq k (nd - u + 1) sub) fun z => ∀ r, r < n → valB z r = word (cmb (f r) 0 nd).1 := by
  intro k
  induction k with
  | zero =>
    intro u sub h1 hu hk hs
    obtain rfl : u = nd := by omega
    exact Ok.pure hs
  | succ k ih =>
    intro u sub h1 hu hk hs
    unfold travLoop
    split
    · rename_i hrem
      obtain ⟨hb1, hb2⟩ := bitFloor_spec (k := nd - u + 1) (by omega)
      obtain ⟨L, hL⟩ : ∃ L, L = Nat.log2 (nd - u + 1) := ⟨_, rfl⟩
      have hbf : bitFloor (nd - u + 1) = 2 ^ L := by rw [hL]; rfl
      rw [hbf] at hb1 hb2
      simp only [hbf]
      have idx : ∀ r c, 1 ≤ c → c < 2 ^ L → (r + 1) * nd - (nd - u + 1) + 1 + (c - 1) = r * nd + (u + (c - 1)) := by
        intro r c h1 h2
        rw [Nat.succ_mul]
        omega
      let g : ℕ → ℕ → Bool × Bool := fun r c => if c = 0 then cmb (f r) 0 u else f r (u + (c - 1))
      refine Ok.bind (full_ok hO hw (junk (nd - u + 1)) hn L (f := g) ?_ ?_) fun z hz => ?_
      · intro r hr c hcL
        simp only [valB, row_div hcL, row_mod hcL, g]
        by_cases h0 : c = 0
        · simp only [if_pos h0]
          exact hs r hr
        · simp only [if_neg h0]
          rw [idx r c (by omega) hcL]
          exact hc r hr _ (by omega)
      · intro r hr c hcL hc1
        simp only [valB, row_div hcL, row_mod hcL, g]
        have h0 : c ≠ 0 := by omega
        simp only [if_neg h0]
        rw [idx r c (by omega) hcL]
        exact he r hr _ (by omega)
      · have hpos : 0 < 2 ^ L := by positivity
        rw [show nd - u + 1 - 2 ^ L + 1 = nd - (u + (2 ^ L - 1)) + 1 by omega]
        refine ih (u + (2 ^ L - 1)) z (by omega) (by omega) (by omega) fun r hr => ?_
        rw [hz r hr]
        congr 2
        have := cmb_prefix (f := f r) (g := g r) (u := u) (n := 2 ^ L - 1) (by simp [g]) (by intro t ht; simp [g])
        rwa [show 2 ^ L - 1 + 1 = 2 ^ L by omega] at this
    · obtain rfl : u = nd := by omega
      exact Ok.pure hs

theorem travAnd_ok (hO : OtOk ot Inv) (hw : 0 < w) (junk : ℕ → ℕ → Share w) {n nd : ℕ} (hn : 0 < n) (hd : 0 < nd) {cmp eq : Share w} {f : ℕ → ℕ → Bool × Bool}
    (hc : ∀ r, r < n → ∀ c, c < nd → valB cmp (r * nd + c) = word (f r c).1)
    (he : ∀ r, r < n → ∀ c, c < nd → valB eq (r * nd + c) = word (f r c).2) :
    Ok Inv (travAnd ot junk n nd cmp eq) fun z => ∀ r, r < n → valB z r = word (cmb (f r) 0 nd).1 := by
  unfold travAnd
  split
  · rename_i h
    obtain ⟨L, rfl⟩ := singleBit_iff h
    exact full_ok hO hw (junk 0) hn L hc fun r hr c hcL _ => he r hr c hcL
  · obtain ⟨hb1, hb2⟩ := bitFloor_spec hd
    have hbf : bitFloor nd = 2 ^ Nat.log2 nd := rfl
    rw [hbf] at hb1 hb2
    simp only [hbf]
    refine Ok.bind (full_ok hO hw (junk 0) hn (Nat.log2 nd) (f := f) ?_ ?_) fun z hz => ?_
    · intro r hr c hcL
      simp only [valB, row_div hcL, row_mod hcL]
      exact hc r hr c (by omega)
    · intro r hr c hcL _
      simp only [valB, row_div hcL, row_mod hcL]
      exact he r hr c (by omega)
    · exact travLoop_ok hO hw junk hn hc he nd _ z (by omega) hb1 (by omega) hz

/-! ## the tree with equality -/

theorem fullEqLoop_ok (hO : OtOk ot Inv) (hw : 0 < w) {n nd : ℕ} (hn : 0 < n) :
    ∀ (k m i : ℕ) (cmp eq : Share w) (f : ℕ → ℕ → Bool × Bool), m ≤ k → 1 ≤ i → nd / 2 ^ (i - 1) = 2 ^ m →
      (∀ r, r < n → ∀ c, c < 2 ^ m → valB cmp (r * 2 ^ m + c) = word (f r c).1) →
      (∀ r, r < n → ∀ c, c < 2 ^ m → valB eq (r * 2 ^ m + c) = word (f r c).2) →
      Ok Inv (fullEqLoop ot n nd k i cmp eq) fun z => ∀ r, r < n →
        valB z.1 r = word (cmb (f r) 0 (2 ^ m)).1 ∧ valB z.2 r = word (cmb (f r) 0 (2 ^ m)).2 := by
  intro k
  induction k with
  | zero =>
    intro m i cmp eq f hm hi hd hc he
    obtain rfl : m = 0 := by omega
    refine Ok.pure fun r hr => ?_
    have h1 := hc r hr 0 (by simp)
    have h2 := he r hr 0 (by simp)
    rw [Nat.pow_zero, Nat.mul_one, Nat.add_zero] at h1 h2
    rw [h1, h2, Nat.pow_zero, cmb_one]
    exact ⟨rfl, rfl⟩
  | succ k ih =>
    intro m i cmp eq f hm hi hd hc he
    unfold fullEqLoop
    simp only [hd]
    rcases m with _ | m
    · rw [if_pos (Nat.pow_zero 2)]
      refine Ok.pure fun r hr => ?_
      have h1 := hc r hr 0 (by simp)
      have h2 := he r hr 0 (by simp)
      rw [Nat.pow_zero, Nat.mul_one, Nat.add_zero] at h1 h2
      rw [h1, h2, Nat.pow_zero, cmb_one]
      exact ⟨rfl, rfl⟩
    have hp : 0 < 2 ^ m := by positivity
    have h2 : 2 ^ (m + 1) = 2 * 2 ^ m := by rw [pow_succ]; ring
    obtain ⟨q, hq⟩ : ∃ q, q = 2 ^ m := ⟨_, rfl⟩
    have hd' : nd / 2 ^ (i + 1 - 1) = 2 ^ m := by
      rw [show i + 1 - 1 = (i - 1) + 1 by omega, pow_succ, ← Nat.div_div_eq_div_mul, hd, h2, Nat.mul_div_cancel_left _ (by omega)]
    rw [if_neg (by omega)]
    have lo : ∀ r c, 2 * (r * q + c) = r * 2 ^ (m + 1) + 2 * c := by intro r c; rw [h2, hq]; ring
    have hi' : ∀ r c, 2 * (r * q + c) + 1 = r * 2 ^ (m + 1) + (2 * c + 1) := by intro r c; rw [lo]; ring
    let f' : ℕ → ℕ → Bool × Bool := fun r c => comb (f r (2 * c)) (f r (2 * c + 1))
    have hf' : ∀ r, cmb (f r) 0 (2 ^ (m + 1)) = cmb (f' r) 0 (2 ^ m) := by
      intro r; rw [h2]; exact (cmb_pair (f r) _).symm
    have hcnt : 2 ^ (m + 1) * n / 2 = n * q := by
      rw [h2, hq, show 2 * 2 ^ m * n = 2 * (n * 2 ^ m) by ring, Nat.mul_div_cancel_left _ (by omega)]
    have tr : ∀ t, t < n * q → ∃ r c, r < n ∧ c < q ∧ t = r * q + c ∧ t / q = r ∧ t % q = c := fun t ht =>
      ⟨t / q, t % q, (Nat.div_lt_iff_lt_mul (by omega)).2 ht, Nat.mod_lt _ (by omega), (Nat.div_add_mod' _ _).symm, rfl, rfl⟩
    rw [hcnt]
    refine Ok.bind (corr_word hO hw (Nat.mul_pos hn (by omega)) (a := fun t => (f (t / q) (2 * (t % q) + 1)).2)
        (b := fun t => (f (t / q) (2 * (t % q))).2) (c := fun t => (f (t / q) (2 * (t % q))).1) ?_ ?_ ?_) ?_
    · intro t ht
      obtain ⟨r, c, hr, hcq, rfl, h1, h2'⟩ := tr t ht
      have := he r hr (2 * c + 1) (by omega)
      rw [← hi'] at this
      simp only [h1, h2']
      exact this
    · intro t ht
      obtain ⟨r, c, hr, hcq, rfl, h1, h2'⟩ := tr t ht
      have := he r hr (2 * c) (by omega)
      rw [← lo] at this
      simp only [h1, h2']
      exact this
    · intro t ht
      obtain ⟨r, c, hr, hcq, rfl, h1, h2'⟩ := tr t ht
      have := hc r hr (2 * c) (by omega)
      rw [← lo] at this
      simp only [h1, h2']
      exact this
    rintro ⟨ne, nc⟩ hcn
    refine Ok.imp (ih m (i + 1) _ _ f' (by omega) (by omega) hd' ?_ ?_) fun z hz r hr => ?_
    · intro r hr c hcq
      rw [← hq] at hcq ⊢
      have hrhs := hc r hr (2 * c + 1) (by omega)
      rw [← hi'] at hrhs
      have hn' := (hcn _ (idx_lt hr hcq)).2
      simp only [row_div hcq, row_mod hcq] at hn'
      rw [valB_xor, hn', show valB (fun p t => cmp p (2 * t + 1)) (r * q + c) = valB cmp (2 * (r * q + c) + 1) from rfl, hrhs, word_xor hw]
      simp only [f', comb]
      rw [Bool.xor_comm]
    · intro r hr c hcq
      rw [← hq] at hcq ⊢
      have hn' := (hcn _ (idx_lt hr hcq)).1
      simp only [row_div hcq, row_mod hcq] at hn'
      exact hn'
    · rw [hf']
      exact hz r hr

theorem fullEq_ok (hO : OtOk ot Inv) (hw : 0 < w) {n : ℕ} (hn : 0 < n) (L : ℕ) {cmp eq : Share w} {f : ℕ → ℕ → Bool × Bool}
    (hc : ∀ r, r < n → ∀ c, c < 2 ^ L → valB cmp (r * 2 ^ L + c) = word (f r c).1)
    (he : ∀ r, r < n → ∀ c, c < 2 ^ L → valB eq (r * 2 ^ L + c) = word (f r c).2) :
    Ok Inv (fullEq ot n (2 ^ L) cmp eq) fun z => ∀ r, r < n →
      valB z.1 r = word (cmb (f r) 0 (2 ^ L)).1 ∧ valB z.2 r = word (cmb (f r) 0 (2 ^ L)).2 := by
  unfold fullEq
  refine Ok.enforce (by rw [singleBit_pow]; simp) ?_
  exact fullEqLoop_ok hO hw hn _ L 1 cmp eq f (Nat.lt_two_pow_self).le (le_refl _) (by simp) hc he

theorem travEqLoop_ok (hO : OtOk ot Inv) (hw : 0 < w) {n nd : ℕ} (hn : 0 < n) {cmp eq : Share w} {f : ℕ → ℕ → Bool × Bool}
    (hc : ∀ r, r < n → ∀ c, c < nd → valB cmp (r * nd + c) = word (f r c).1)
    (he : ∀ r, r < n → ∀ c, c < nd → valB eq (r * nd + c) = word (f r c).2) :
    ∀ (k u : ℕ) (sc se : Share w), 1 ≤ u → u ≤ nd → nd - u ≤ k →
      (∀ r, r < n → valB sc r = word (cmb (f r) 0 u).1 ∧ valB se r = word (cmb (f r) 0 u).2) →
      Ok Inv (travEqLoop ot n nd cmp eq k (nd - u + 1) sc se) fun z => ∀ r, r < n →
        valB z.1 r = word (cmb (f r) 0 nd).1 ∧ valB z.2 r = word (cmb (f r) 0 nd).2 := by
  intro k
  induction k with
  | zero =>
    intro u sc se h1 hu hk hs
    obtain rfl : u = nd := by omega
    exact Ok.pure hs
  | succ k ih =>
    intro u sc se h1 hu hk hs
    unfold travEqLoop
    split
    · rename_i hrem
      obtain ⟨hb1, hb2⟩ := bitFloor_spec (k := nd - u + 1) (by omega)
      obtain ⟨L, hL⟩ : ∃ L, L = Nat.log2 (nd - u + 1) := ⟨_, rfl⟩
      have hbf : bitFloor (nd - u + 1) = 2 ^ L := by rw [hL]; rfl
      rw [hbf] at hb1 hb2
      simp only [hbf]
      have idx : ∀ r c, 1 ≤ c → c < 2 ^ L → (r + 1) * nd - (nd - u + 1) + 1 + (c - 1) = r * nd + (u + (c - 1)) := by
        intro r c h1 h2
        rw [Nat.succ_mul]
        omega
      let g : ℕ → ℕ → Bool × Bool := fun r c => if c = 0 then cmb (f r) 0 u else f r (u + (c - 1))
      refine Ok.bind (fullEq_ok hO hw hn L (f := g) ?_ ?_) ?_
      · intro r hr c hcL
        simp only [valB, row_div hcL, row_mod hcL, g]
        by_cases h0 : c = 0
        · simp only [if_pos h0]
          exact (hs r hr).1
        · simp only [if_neg h0]
          rw [idx r c (by omega) hcL]
          exact hc r hr _ (by omega)
      · intro r hr c hcL
        simp only [valB, row_div hcL, row_mod hcL, g]
        by_cases h0 : c = 0
        · simp only [if_pos h0]
          exact (hs r hr).2
        · simp only [if_neg h0]
          rw [idx r c (by omega) hcL]
          exact he r hr _ (by omega)
      · rintro ⟨zc, ze⟩ hz
        have hpos : 0 < 2 ^ L := by positivity
        rw [show nd - u + 1 - 2 ^ L + 1 = nd - (u + (2 ^ L - 1)) + 1 by omega]
        refine ih (u + (2 ^ L - 1)) zc ze (by omega) (by omega) (by omega) fun r hr => ?_
        have := cmb_prefix (f := f r) (g := g r) (u := u) (n := 2 ^ L - 1) (by simp [g]) (by intro t ht; simp [g])
        rw [show 2 ^ L - 1 + 1 = 2 ^ L by omega] at this
        rw [← this]
        exact hz r hr
    · obtain rfl : u = nd := by omega
      exact Ok.pure hs

theorem travEq_ok (hO : OtOk ot Inv) (hw : 0 < w) {n nd : ℕ} (hn : 0 < n) (hd : 0 < nd) {cmp eq : Share w} {f : ℕ → ℕ → Bool × Bool}
    (hc : ∀ r, r < n → ∀ c, c < nd → valB cmp (r * nd + c) = word (f r c).1)
    (he : ∀ r, r < n → ∀ c, c < nd → valB eq (r * nd + c) = word (f r c).2) :
    Ok Inv (travEq ot n nd cmp eq) fun z => ∀ r, r < n →
      valB z.1 r = word (cmb (f r) 0 nd).1 ∧ valB z.2 r = word (cmb (f r) 0 nd).2 := by
  unfold travEq
  split
  · rename_i h
    obtain ⟨L, rfl⟩ := singleBit_iff h
    exact fullEq_ok hO hw hn L hc he
  · obtain ⟨hb1, hb2⟩ := bitFloor_spec hd
    have hbf : bitFloor nd = 2 ^ Nat.log2 nd := rfl
    rw [hbf] at hb1 hb2
    simp only [hbf]
    refine Ok.bind (fullEq_ok hO hw hn (Nat.log2 nd) (f := f) ?_ ?_) ?_
    · intro r hr c hcL
      simp only [valB, row_div hcL, row_mod hcL]
      exact hc r hr c (by omega)
    · intro r hr c hcL
      simp only [valB, row_div hcL, row_mod hcL]
      exact he r hr c (by omega)
    · rintro ⟨zc, ze⟩ hz
      exact travEqLoop_ok hO hw hn hc he nd _ zc ze (by omega) hb1 (by omega) hz


/-! ## the protocols -/

/-- the number of low bits that the digits cover -/
def covered (w radix bw : ℕ) : ℕ := radix * (((if bw = 0 then w else bw) + radix - 1) / radix)

theorem covered_ge (w : ℕ) {radix : ℕ} (h : 1 ≤ radix) (bw : ℕ) : (if bw = 0 then w else bw) ≤ covered w radix bw := by
  unfold covered
  generalize (if bw = 0 then w else bw) = b
  have h1 := Nat.div_add_mod (b + radix - 1) radix
  have h2 := Nat.mod_lt (b + radix - 1) (show 0 < radix by omega)
  omega

theorem ceilDiv_pos' {b r : ℕ} (hb : 0 < b) (hr : 0 < r) : 0 < ceilDiv b r := Nat.div_pos (by omega) hr

/-- **Comparison**: the shared bit is the comparison of the covered low bits of the two private words. -/
theorem c53_compare (hO : OtOk ot Inv) (junk : ℕ → ℕ → Share w) {radix bw n : ℕ} (h1 : 1 ≤ radix) (h8 : radix ≤ 8) (hN : 2 ^ radix ∈ otSizes) (hw : radix ≤ w)
    (hb : bw ≤ w) (hn : 0 < n) (gt : Bool) (x : Share w) :
    Ok Inv (cmpProt ot junk radix bw n gt x) fun z => ∀ i, i < n →
      valB z i = word (cmpB gt ((x 0 i).toNat % 2 ^ covered w radix bw) ((x 1 i).toNat % 2 ^ covered w radix bw)) := by
  unfold cmpProt
  refine Ok.enforce (by simp [h1, h8]) (Ok.enforce (by simpa using hb) ?_)
  have hd : 0 < ceilDiv (if bw = 0 then w else bw) radix := ceilDiv_pos' (by split <;> omega) (by omega)
  refine Ok.bind (leaves_ok hO h1 h8 hN hw hn hd gt x) ?_
  rintro ⟨c, e⟩ hl
  refine Ok.imp (travAnd_ok hO (by omega) junk hn hd
    (f := fun r j => (cmpB gt ((x 0 r).toNat / (2 ^ radix) ^ j % 2 ^ radix) ((x 1 r).toNat / (2 ^ radix) ^ j % 2 ^ radix), decide ((x 0 r).toNat / (2 ^ radix) ^ j % 2 ^ radix = (x 1 r).toNat / (2 ^ radix) ^ j % 2 ^ radix)))
    (fun r hr j hj => (hl r hr j hj).1) (fun r hr j hj => (hl r hr j hj).2)) fun z hz i hi => ?_
  rw [hz i hi]
  have := cmb_digits gt (B := 2 ^ radix) (by positivity) (x 0 i).toNat (x 1 i).toNat (ceilDiv (if bw = 0 then w else bw) radix)
  rw [← Nat.pow_mul] at this
  exact congrArg (fun p => word p.1) this

/-- **Comparison with equality**. -/
theorem c53_compareEq (hO : OtOk ot Inv) {radix bw n : ℕ} (h1 : 1 ≤ radix) (h8 : radix ≤ 8) (hN : 2 ^ radix ∈ otSizes) (hw : radix ≤ w)
    (hb : bw ≤ w) (hn : 0 < n) (gt : Bool) (x : Share w) :
    Ok Inv (cmpEqProt ot radix bw n gt x) fun z => ∀ i, i < n →
      valB z.1 i = word (cmpB gt ((x 0 i).toNat % 2 ^ covered w radix bw) ((x 1 i).toNat % 2 ^ covered w radix bw)) ∧
      valB z.2 i = word (decide ((x 0 i).toNat % 2 ^ covered w radix bw = (x 1 i).toNat % 2 ^ covered w radix bw)) := by
  unfold cmpEqProt
  refine Ok.enforce (by simp [h1, h8]) (Ok.enforce (by simpa using hb) ?_)
  have hd : 0 < ceilDiv (if bw = 0 then w else bw) radix := ceilDiv_pos' (by split <;> omega) (by omega)
  refine Ok.bind (leaves_ok hO h1 h8 hN hw hn hd gt x) ?_
  rintro ⟨c, e⟩ hl
  refine Ok.imp (travEq_ok hO (by omega) hn hd
    (f := fun r j => (cmpB gt ((x 0 r).toNat / (2 ^ radix) ^ j % 2 ^ radix) ((x 1 r).toNat / (2 ^ radix) ^ j % 2 ^ radix), decide ((x 0 r).toNat / (2 ^ radix) ^ j % 2 ^ radix = (x 1 r).toNat / (2 ^ radix) ^ j % 2 ^ radix)))
    (fun r hr j hj => (hl r hr j hj).1) (fun r hr j hj => (hl r hr j hj).2)) fun z hz i hi => ?_
  rw [(hz i hi).1, (hz i hi).2]
  have := cmb_digits gt (B := 2 ^ radix) (by positivity) (x 0 i).toNat (x 1 i).toNat (ceilDiv (if bw = 0 then w else bw) radix)
  rw [← Nat.pow_mul] at this
  exact ⟨congrArg (fun p => word p.1) this, congrArg (fun p => word p.2) this⟩

/-- On all bits the comparison is that of the words. -/
theorem covered_full {radix : ℕ} (h1 : 1 ≤ radix) (v : BitVec w) : v.toNat % 2 ^ covered w radix 0 = v.toNat :=
  Nat.mod_eq_of_lt (lt_of_lt_of_le v.isLt (Nat.pow_le_pow_right (by omega) (by simpa using covered_ge w h1 0)))

theorem c53_compare_full (hO : OtOk ot Inv) (junk : ℕ → ℕ → Share w) {radix n : ℕ} (h1 : 1 ≤ radix) (h8 : radix ≤ 8) (hN : 2 ^ radix ∈ otSizes) (hw : radix ≤ w)
    (hn : 0 < n) (gt : Bool) (x : Share w) :
    Ok Inv (cmpProt ot junk radix 0 n gt x) fun z => ∀ i, i < n → valB z i = word (cmpB gt (x 0 i).toNat (x 1 i).toNat) := by
  refine Ok.imp (c53_compare hO junk h1 h8 hN hw (Nat.zero_le _) hn gt x) fun z hz i hi => ?_
  rw [hz i hi, covered_full h1, covered_full h1]

/-- On `bw` bits it is that of the low `bw` bits if the digits divide them, or if the words have no further bits. -/
theorem covered_low {radix bw : ℕ} (h1 : 1 ≤ radix) (h0 : 0 < bw) {v : BitVec w} (h : radix ∣ bw ∨ v.toNat < 2 ^ bw) :
    v.toNat % 2 ^ covered w radix bw = v.toNat % 2 ^ bw := by
  rcases h with ⟨k, hk⟩ | h
  · congr 2
    unfold covered
    rw [if_neg (by omega), hk]
    rw [show radix * k + radix - 1 = radix - 1 + radix * k by omega, Nat.add_mul_div_left _ _ (by omega), Nat.div_eq_of_lt (by omega), Nat.zero_add]
  · have := covered_ge w h1 bw
    rw [if_neg (by omega)] at this
    rw [Nat.mod_eq_of_lt h, Nat.mod_eq_of_lt (lt_of_lt_of_le h (Nat.pow_le_pow_right (by omega) this))]

theorem c53_compare_low (hO : OtOk ot Inv) (junk : ℕ → ℕ → Share w) {radix bw n : ℕ} (h1 : 1 ≤ radix) (h8 : radix ≤ 8) (hN : 2 ^ radix ∈ otSizes) (hw : radix ≤ w)
    (h0 : 0 < bw) (hb : bw ≤ w) (hn : 0 < n) (gt : Bool) (x : Share w) (hx : radix ∣ bw ∨ ∀ p i, i < n → (x p i).toNat < 2 ^ bw) :
    Ok Inv (cmpProt ot junk radix bw n gt x) fun z => ∀ i, i < n → valB z i = word (cmpB gt ((x 0 i).toNat % 2 ^ bw) ((x 1 i).toNat % 2 ^ bw)) := by
  refine Ok.imp (c53_compare hO junk h1 h8 hN hw hb hn gt x) fun z hz i hi => ?_
  rw [hz i hi, covered_low h1 h0 (hx.imp_right fun h => h 0 i hi), covered_low h1 h0 (hx.imp_right fun h => h 1 i hi)]

/-! ## equality -/

theorem eqLeaf_bit (digit re : BitVec 8) (k : ℕ) :
    let m : BitVec 8 := BitVec.ofNat 8 ((eqLeafMsg digit (re &&& 1) k).toNat % 2 ^ 1)
    (re &&& (1 : BitVec 8)) ^^^ m = word (decide (digit.toNat = k)) := by
  have key : ∀ (b : BitVec 8), (b = 0 ∨ b = 1) → ∀ e : Bool,
      let m : BitVec 8 := BitVec.ofNat 8 ((b ^^^ (if e = true then (1 : BitVec 8) else 0)).toNat % 2 ^ 1)
      b ^^^ m = word e := by
    rintro b (rfl | rfl) <;> decide
  have := key (re &&& 1) (bit01 re (by omega)) (decide (digit.toNat = k))
  unfold eqLeafMsg
  by_cases h : digit.toNat = k
  · rw [if_pos h]
    rw [decide_eq_true h, if_pos rfl] at this
    rw [decide_eq_true h]
    exact this
  · rw [if_neg h]
    rw [decide_eq_false h, if_neg Bool.false_ne_true] at this
    rw [decide_eq_false h]
    exact this

/-- digit `j` of the low `bw` bits -/
def lowDigit (radix bw : ℕ) (X j : ℕ) : ℕ := X % 2 ^ bw / (2 ^ radix) ^ j % 2 ^ radix

theorem mod_div_mod {X b s r : ℕ} (h : s ≤ b) : X % 2 ^ b / 2 ^ s % 2 ^ r = X / 2 ^ s % 2 ^ min r (b - s) := by
  apply Nat.eq_of_testBit_eq
  intro k
  simp only [Nat.testBit_mod_two_pow, Nat.testBit_div_two_pow]
  by_cases h1 : k < r <;> by_cases h2 : k + s < b
  · have : k < min r (b - s) := by omega
    simp [h1, h2, this]
  · have : ¬ k < min r (b - s) := by omega
    simp [h2, this]
  · have : ¬ k < min r (b - s) := by omega
    simp [h1, this]
  · have : ¬ k < min r (b - s) := by omega
    simp [h1, this]

theorem eqDigits_toNat {radix bw nd : ℕ} (h1 : 1 ≤ radix) (h8 : radix ≤ 8) (h0 : 0 < bw) (hb : bw ≤ w) (hnd : nd = ceilDiv bw radix) {m mr : BitVec w}
    (hl : ∀ v : BitVec w, v &&& m = lowBits radix v) (hr : 0 < bw % radix → ∀ v : BitVec w, v &&& mr = lowBits (bw % radix) v)
    (x : ℕ → BitVec w) {i j : ℕ} (hj : j < nd) :
    (eqDigits radix bw nd m mr x (i * nd + j)).toNat = lowDigit radix bw (x i).toNat j := by
  have hdm := Nat.div_add_mod bw radix
  have hml := Nat.mod_lt bw (show 0 < radix by omega)
  have hnd' : nd = bw / radix + if bw % radix = 0 then 0 else 1 := by
    rw [hnd]
    unfold ceilDiv
    conv_lhs => rw [← hdm]
    split
    · rename_i h
      rw [h, show radix * (bw / radix) + 0 + radix - 1 = radix - 1 + radix * (bw / radix) by omega, Nat.add_mul_div_left _ _ (by omega), Nat.div_eq_of_lt (by omega)]
      omega
    · rename_i h
      rw [show radix * (bw / radix) + bw % radix + radix - 1 = (bw % radix - 1) + radix * (bw / radix + 1) by rw [Nat.mul_add]; omega,
        Nat.add_mul_div_left _ _ (by omega), Nat.div_eq_of_lt (by omega)]
      omega
  have hs : j * radix ≤ bw := by
    have : j ≤ bw / radix := by split at hnd' <;> omega
    have := Nat.mul_le_mul_left radix this
    rw [Nat.mul_comm]
    omega
  unfold eqDigits lowDigit
  simp only [row_div hj, row_mod hj]
  rw [← Nat.pow_mul, Nat.mul_comm radix j, mod_div_mod hs]
  split
  · rename_i h
    rw [hl, ← BitVec.setWidth_and, hr h.1]
    have : j = bw / radix := by
      rw [if_neg (by omega)] at hnd'
      omega
    have hmin : min radix (bw - j * radix) = bw % radix := by
      rw [this, Nat.mul_comm]
      omega
    rw [hmin, BitVec.toNat_setWidth, lowBits_toNat, lowBits_toNat, BitVec.toNat_ushiftRight, Nat.shiftRight_eq_div_pow,
      Nat.mod_mod_of_dvd _ (Nat.pow_dvd_pow 2 hml.le)]
    exact Nat.mod_eq_of_lt (lt_of_lt_of_le (Nat.mod_lt _ (by positivity)) (Nat.pow_le_pow_right (by omega) (by omega)))
  · rename_i h
    have hmin : min radix (bw - j * radix) = radix := by
      have : j + 1 ≤ bw / radix := by
        by_cases h0 : bw % radix = 0
        · rw [if_pos h0] at hnd'; omega
        · rw [if_neg h0] at hnd'
          have : ¬ j + 1 = nd := fun h' => h ⟨by omega, h'⟩
          omega
      have := Nat.mul_le_mul_left radix this
      rw [Nat.mul_add, Nat.mul_one, Nat.mul_comm radix j] at this
      omega
    rw [hl, hmin, digit_toNat h8]

theorem eqLeaves_ok (hO : OtOk ot Inv) {radix bw nd n : ℕ} (h1 : 1 ≤ radix) (h8 : radix ≤ 8) (hN : 2 ^ radix ∈ otSizes) (hw : radix ≤ w)
    (h0 : 0 < bw) (hb : bw ≤ w) (hnd : nd = ceilDiv bw radix) (hn : 0 < n) (x : Share w) :
    Ok Inv (eqLeaves ot radix bw nd n x) fun z => ∀ i, i < n → ∀ j, j < nd →
      valB z (j * n + i) = word (decide (lowDigit radix bw (x 0 i).toNat j = lowDigit radix bw (x 1 i).toNat j)) := by
  have hd : 0 < nd := hnd ▸ ceilDiv_pos' h0 (by omega)
  unfold eqLeaves
  obtain ⟨m, hm, hl⟩ := mask_low (w := w) h1 hw
  obtain ⟨mr, hmr, hlr⟩ : ∃ mr, makeBitsMask w (bw % radix) = some mr ∧ (0 < bw % radix → ∀ v : BitVec w, v &&& mr = lowBits (bw % radix) v) := by
    by_cases hz : bw % radix = 0
    · refine ⟨_, by unfold makeBitsMask; rw [hz]; simp; rfl, fun h => by omega⟩
    · obtain ⟨mr, h, h'⟩ := mask_low (w := w) (k := bw % radix) (by omega) (le_trans (Nat.mod_le _ _) hb)
      exact ⟨mr, h, fun _ => h'⟩
  refine Ok.liftO hm (Ok.liftO hmr ?_)
  have dig : ∀ p i j, j < nd → (eqDigits radix bw nd m mr (x p) (i * nd + j)).toNat = lowDigit radix bw (x p i).toNat j :=
    fun p i j hj => eqDigits_toNat h1 h8 h0 hb hnd hl hlr (x p) hj
  have dlt : ∀ p t, (eqDigits radix bw nd m mr (x p) t).toNat < 2 ^ radix := by
    intro p t
    rw [← Nat.div_add_mod' t nd, dig p _ _ (Nat.mod_lt _ hd)]
    exact Nat.mod_lt _ (by positivity)
  refine Ok.bind (hO.fill _) fun re _ => ?_
  refine Ok.enforce ?_ ?_
  · rw [List.all_eq_true]
    intro t _
    rw [decide_eq_true_eq]
    exact (dlt _ _).le
  refine Ok.bind (hO.cmcc 0 _ _ hN (by omega) (by omega) (Nat.mul_pos hn hd) fun t _ => dlt _ _) fun r hr => ?_
  refine Ok.pure fun i hi j hj => ?_
  have ht := idx_lt hi hj
  have hr' := hr _ ht
  simp only [row_div (dlt _ _), row_mod (dlt _ _)] at hr'
  have hbit := eqLeaf_bit (eqDigits radix bw nd m mr (x 0) (i * nd + j)) (re (i * nd + j)) (eqDigits radix bw nd m mr (x 1) (i * nd + j)).toNat
  simp only at hbit
  rw [← hr'] at hbit
  rw [dig 0 i j hj, dig 1 i j hj] at hbit
  simp only [valB, row_div hi, row_mod hi]
  rw [if_pos trivial, if_neg (by decide), ← BitVec.setWidth_xor, hbit, word_set8 (by omega)]

theorem eqTree_ok (hO : OtOk ot Inv) (hw : 0 < w) {n : ℕ} (hn : 0 < n) :
    ∀ (k cur : ℕ) (e : Share w) (g : ℕ → ℕ → Bool), 1 ≤ cur → cur ≤ k + 1 →
      (∀ r, r < n → ∀ c, c < cur → valB e (c * n + r) = word (g r c)) →
      Ok Inv (eqTree ot n k cur e) fun z => ∀ r, r < n → valB z r = word ((List.range cur).all (g r)) := by
  intro k
  induction k with
  | zero =>
    intro cur e g h1 hk he
    obtain rfl : cur = 1 := by omega
    refine Ok.pure fun r hr => ?_
    have := he r hr 0 (by omega)
    rw [Nat.zero_mul, Nat.zero_add] at this
    rw [this]
    simp
  | succ k ih =>
    intro cur e g h1 hk he
    unfold eqTree
    by_cases hc : cur > 1
    · rw [if_pos hc]
      simp only
      have hh : 0 < cur / 2 := by omega
      obtain ⟨h, hhd⟩ : ∃ h, h = cur / 2 := ⟨_, rfl⟩
      rw [← hhd] at hh ⊢
      refine Ok.bind (and_word hO hw (Nat.mul_pos hh hn) (a := fun t => g (t % n) (t / n)) (b := fun t => g (t % n) (h + t / n)) ?_ ?_) fun nx hnx => ?_
      · intro t ht
        have := he (t % n) (Nat.mod_lt _ hn) (t / n) (lt_of_lt_of_le ((Nat.div_lt_iff_lt_mul hn).2 ht) (by omega))
        rwa [Nat.div_add_mod'] at this
      · intro t ht
        have h2 : t / n < h := (Nat.div_lt_iff_lt_mul hn).2 ht
        have := he (t % n) (Nat.mod_lt _ hn) (h + t / n) (by omega)
        rwa [Nat.add_mul, Nat.add_assoc, Nat.div_add_mod'] at this
      have hcd : ceilDiv ((h + (cur - 2 * h)) * n) n = h + (cur - 2 * h) := by
        unfold ceilDiv
        rw [show (h + (cur - 2 * h)) * n + n - 1 = n - 1 + (h + (cur - 2 * h)) * n by omega, Nat.add_mul_div_right _ _ hn, Nat.div_eq_of_lt (by omega), Nat.zero_add]
      rw [hcd]
      let g' : ℕ → ℕ → Bool := fun r c => if c < h then g r c && g r (h + c) else g r (2 * h)
      refine Ok.imp (ih (h + (cur - 2 * h)) _ g' (by omega) (by omega) ?_) fun z hz r hr => ?_
      · intro r hr c hcc
        by_cases hch : c < h
        · have hlt : c * n + r < h * n := idx_lt hch hr
          have := hnx _ hlt
          simp only [row_div hr, row_mod hr] at this
          simp only [g', if_pos hch]
          split
          · simp only [valB, if_pos hlt]
            exact this
          · exact this
        · have hrem : cur - 2 * h > 0 := by omega
          obtain rfl : c = h := by omega
          simp only [g', if_neg hch, if_pos hrem, valB]
          rw [if_neg (by omega), if_neg (by omega), show c * 2 * n + (c * n + r - c * n) = 2 * c * n + r by rw [Nat.mul_comm c 2]; omega]
          exact he r hr (2 * c) (by omega)
      · rw [hz r hr]
        congr 1
        rw [Bool.eq_iff_iff, List.all_eq_true, List.all_eq_true]
        simp only [List.mem_range, g']
        constructor
        · intro H c hcc
          by_cases c1 : c < h
          · have := H c (by omega)
            rw [if_pos c1, Bool.and_eq_true] at this
            exact this.1
          · by_cases c2 : c < 2 * h
            · have := H (c - h) (by omega)
              rw [if_pos (by omega), Bool.and_eq_true, show h + (c - h) = c by omega] at this
              exact this.2
            · have := H h (by omega)
              rw [if_neg (by omega), show 2 * h = c by omega] at this
              exact this
        · intro H c hcc
          split
          · rw [Bool.and_eq_true]
            exact ⟨H c (by omega), H (h + c) (by omega)⟩
          · exact H (2 * h) (by omega)
    · rw [if_neg hc]
      obtain rfl : cur = 1 := by omega
      refine Ok.pure fun r hr => ?_
      have := he r hr 0 (by omega)
      rw [Nat.zero_mul, Nat.zero_add] at this
      rw [this]
      simp

/-- equality of all digits is equality -/
theorem digits_eq {B : ℕ} (hB : 0 < B) (X Y : ℕ) : ∀ k, (∀ j, j < k → X / B ^ j % B = Y / B ^ j % B) ↔ X % B ^ k = Y % B ^ k := by
  intro k
  have := cmb_digits true hB X Y k
  have h2 : (cmb (fun j => (cmpB true (X / B ^ j % B) (Y / B ^ j % B), decide (X / B ^ j % B = Y / B ^ j % B))) 0 k).2 = true ↔
      ∀ j, j < k → X / B ^ j % B = Y / B ^ j % B := by
    clear this
    induction k with
    | zero => simp [cmb]
    | succ k ih =>
      simp only [cmb, comb, Bool.and_eq_true, ih, decide_eq_true_eq, Nat.zero_add]
      constructor
      · rintro ⟨a, b⟩ j hj
        rcases Nat.lt_succ_iff_lt_or_eq.1 hj with h | h
        · exact b j h
        · exact h ▸ a
      · intro H
        exact ⟨H k (by omega), fun j hj => H j (by omega)⟩
  rw [← h2, this]
  simp

/-- **Equality**: the shared bit says whether the two private words agree on the low bits asked for. -/
theorem c53_equal (hO : OtOk ot Inv) {radix bw n : ℕ} (h1 : 1 ≤ radix) (h8 : radix ≤ 8) (hN : 2 ^ radix ∈ otSizes) (hw : radix ≤ w)
    (hn : 0 < n) (x : Share w) :
    Ok Inv (eqProt ot radix bw n x) fun z => ∀ i, i < n →
      valB z i = word (decide ((x 0 i).toNat % 2 ^ (if bw = 0 then w else bw) = (x 1 i).toNat % 2 ^ (if bw = 0 then w else bw))) := by
  unfold eqProt
  refine Ok.enforce (by simp [h1, h8]) ?_
  simp only
  obtain ⟨b, hb⟩ : ∃ b, b = min (if bw = 0 then w else bw) w := ⟨_, rfl⟩
  rw [← hb]
  have hb0 : 0 < b := by rw [hb]; split <;> omega
  have hbw : b ≤ w := by rw [hb]; exact Nat.min_le_right _ _
  obtain ⟨nd, hnd⟩ : ∃ nd, nd = ceilDiv b radix := ⟨_, rfl⟩
  rw [← hnd]
  have hd : 0 < nd := hnd ▸ ceilDiv_pos' hb0 (by omega)
  refine Ok.bind (eqLeaves_ok hO h1 h8 hN hw hb0 hbw hnd hn x) fun e he => ?_
  refine Ok.imp (eqTree_ok hO (by omega) hn nd nd e _ hd (by omega) he) fun z hz i hi => ?_
  rw [hz i hi]
  congr 1
  have hcov : b ≤ radix * nd := by
    have := Nat.div_add_mod (b + radix - 1) radix
    have := Nat.mod_lt (b + radix - 1) (show 0 < radix by omega)
    rw [hnd]
    unfold ceilDiv
    omega
  have full : ∀ v : BitVec w, v.toNat % 2 ^ b % (2 ^ radix) ^ nd = v.toNat % 2 ^ b := fun v => by
    rw [← Nat.pow_mul]
    exact Nat.mod_eq_of_lt (lt_of_lt_of_le (Nat.mod_lt _ (by positivity)) (Nat.pow_le_pow_right (by omega) hcov))
  have low : ∀ v : BitVec w, v.toNat % 2 ^ (if bw = 0 then w else bw) = v.toNat % 2 ^ b := by
    intro v
    rw [hb]
    rcases Nat.le_total (if bw = 0 then w else bw) w with h | h
    · rw [Nat.min_eq_left h]
    · rw [Nat.min_eq_right h, Nat.mod_eq_of_lt v.isLt, Nat.mod_eq_of_lt (lt_of_lt_of_le v.isLt (Nat.pow_le_pow_right (by omega) h))]
  have hde := digits_eq (B := 2 ^ radix) (by positivity) ((x 0 i).toNat % 2 ^ b) ((x 1 i).toNat % 2 ^ b) nd
  rw [full, full] at hde
  rw [low, low, Bool.eq_iff_iff, List.all_eq_true, decide_eq_true_eq, ← hde]
  exact ⟨fun H j hj => of_decide_eq_true (H j (List.mem_range.2 hj)), fun H j hj => decide_eq_true (H j (List.mem_range.1 hj))⟩

/-! ## examples -/

def cmpX : Share 16 := fun p i => if p = 0 then BitVec.ofNat 16 (12345 * i + 700) else BitVec.ofNat 16 (2 * i * i + 24000 - 9 * i)

/-- 16 bits in digits of 4 (a full tree), of 1 (16 digits), of 3 (6 digits: not a power of two) and of 8 -/
example : ((cmpX 0 1).toNat, (cmpX 1 1).toNat, (cmpX 0 2).toNat, (cmpX 1 2).toNat) = (13045, 23993, 25390, 23990) := by decide +kernel
example : (List.map (fun r => peek (cmpProt (idealOt 16) (fun _ _ _ _ => 0x5a5a) r 0 3 true cmpX) 5 (fun z => valB z 2)) [1, 2, 3, 4, 8]) =
    List.replicate 5 (some 1) := by decide +kernel
example : (List.map (fun r => peek (cmpProt (idealOt 16) (fun _ _ _ _ => 0x5a5a) r 0 3 true cmpX) 5 (fun z => valB z 1)) [1, 2, 3, 4, 8]) =
    List.replicate 5 (some 0) := by decide +kernel
example : (List.map (fun r => peek (cmpProt (idealOt 16) (fun _ _ _ _ => 0x5a5a) r 0 3 false cmpX) 5 (fun z => valB z 1)) [1, 2, 3, 4, 8]) =
    List.replicate 5 (some 1) := by decide +kernel
example : peek (cmpEqProt (idealOt 16) 3 0 3 true fun _ i => BitVec.ofNat 16 (i * 999)) 5 (fun z => valB z.2 1) = some 1 := by decide +kernel
example : peek (cmpEqProt (idealOt 16) 3 0 3 true cmpX) 5 (fun z => valB z.1 2) = some 1 := by decide +kernel
example : peek (eqProt (idealOt 16) 3 0 3 fun _ i => BitVec.ofNat 16 (i * 999)) 5 (fun z => valB z 1) = some 1 := by decide +kernel
example : peek (eqProt (idealOt 16) 3 0 3 cmpX) 5 (fun z => valB z 1) = some 0 := by decide +kernel
/-- equality on five bits ignores the others -/
example : peek (eqProt (idealOt 16) 3 5 1 fun p _ => if p = 0 then 0x1ff7 else 0x0017) 5 (fun z => valB z 0) = some 1 := by decide +kernel

/-- Comparison on one bit with digits of four looks at four: bit 1 of the left word decides although only bit 0 was asked for. -/
theorem c53_beyond : peek (cmpProt (idealOt 16) (fun _ _ _ _ => 0) 4 1 1 true fun p _ => if p = 0 then 2 else 0) 0 (fun z => valB z 0) = some 1 ∧
    cmpB true ((2 : BitVec 16).toNat % 2 ^ 1) ((0 : BitVec 16).toNat % 2 ^ 1) = false := by decide +kernel

end Spu.Props

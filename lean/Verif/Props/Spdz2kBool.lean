import Verif.Model.Spdz2kBool
import Verif.Spec.Spdz2kBool
import Verif.Props.Spdz2kArith

set_option autoImplicit false
set_option linter.unusedSectionVars false

/-!
C63: boolean shares of SPDZ2k.
-/

namespace Spu.Props

open Spu.Model.Spdz Spu.Spec.Spdz

variable {N w : ℕ} {key : Fin (N + 1) → Rg w}

/-! ## Places -/

theorem writes_succ {α : Type} (pos : ℕ → ℕ) (v : ℕ → α) (l : ℕ) (buf : ℕ → α) :
    writes pos v (l + 1) buf = Function.update (writes pos v l buf) (pos l) (v l) := by
  unfold writes
  rw [List.range_succ, List.foldl_append, List.foldl_cons, List.foldl_nil]

theorem writes_out {α : Type} (pos : ℕ → ℕ) (v : ℕ → α) (l : ℕ) (buf : ℕ → α) {q : ℕ} (h : ∀ m < l, pos m ≠ q) :
    writes pos v l buf q = buf q := by
  induction l with
  | zero => rfl
  | succ l ih =>
    rw [writes_succ, Function.update_of_ne (h l (by omega)).symm]
    exact ih fun m hm => h m (by omega)

theorem writes_in {α : Type} (pos : ℕ → ℕ) (v : ℕ → α) (l : ℕ) (buf : ℕ → α) {m : ℕ} (hm : m < l)
    (h : ∀ m' < l, m < m' → pos m' ≠ pos m) : writes pos v l buf (pos m) = v m := by
  induction l with
  | zero => omega
  | succ l ih =>
    rw [writes_succ]
    by_cases e : m = l
    · subst e
      rw [Function.update_self]
    · rw [Function.update_of_ne (h l (by omega) (by omega)).symm]
      exact ih (by omega) fun m' h1 h2 => h m' (by omega) h2

theorem splitDiv {nb i j : ℕ} (h : j < nb) : (i * nb + j) / nb = i ∧ (i * nb + j) % nb = j := by
  constructor
  · rw [mul_comm, Nat.mul_add_div (by omega), Nat.div_eq_of_lt h, add_zero]
  · rw [mul_comm, Nat.mul_add_mod, Nat.mod_eq_of_lt h]

theorem flatLt {n nb i j : ℕ} (hi : i < n) (hj : j < nb) : i * nb + j < n * nb := by
  calc i * nb + j < i * nb + nb := by omega
    _ = (i + 1) * nb := by ring
    _ ≤ n * nb := Nat.mul_le_mul_right _ hi

/-- The buffer made by `makeBShare`, when it has more than one element. -/
theorem makeB_places {k r c nb : ℕ} (h0 : 0 < nb) (hc : 0 < c) (hk : nb ≤ k) (buf : Fin (N + 1) → ℕ → Rg w × Rg w)
    (val mac : Flat N w) (hf : fastStride r c = 1) :
    ∃ x, makeB k r (c * nb) nb buf val mac = some x ∧ x.nbits = nb ∧ ∀ p, ∀ i < r * c, ∀ j < k,
      x.st p (i * k + j) = if j < nb then (val p (i * nb + j), mac p (i * nb + j)) else (0, 0) := by
  have e : c * nb / nb = c := Nat.mul_div_cancel _ h0
  unfold makeB
  rw [guard_bind (show nb ≠ 0 by omega), guard_bind (show c * nb % nb = 0 ∧ c * nb / nb ≠ 0 from
    ⟨Nat.mul_mod_left _ _, by omega⟩), guard_bind hk, e]
  refine ⟨_, rfl, rfl, fun p i hi j hj => ?_⟩
  simp only [hf, one_mul]
  have inj : ∀ m' : ℕ, m' / nb * k + m' % nb = i * k + j → m' = i * nb + j ∧ j < nb := by
    intro m' h
    have h1 := Nat.mod_lt m' h0
    obtain ⟨a, b⟩ := splitDiv (i := m' / nb) (lt_of_lt_of_le h1 hk)
    rw [h] at a b
    obtain ⟨a', b'⟩ := splitDiv (i := i) hj
    rw [a'] at a
    rw [b'] at b
    refine ⟨?_, by omega⟩
    rw [a, b, mul_comm]
    exact (Nat.div_add_mod m' nb).symm
  split_ifs with hjn
  · have := writes_in (fun m => m / nb * k + m % nb) (fun m => (val p m, mac p m)) (r * c * nb)
      (writes (fun m => m) (fun _ => (0, 0)) (r * c * k) (buf p)) (m := i * nb + j) (flatLt hi hjn) (by
        intro m' h1 h2 h3
        simp only [(splitDiv hjn).1, (splitDiv hjn).2] at h3
        have := (inj m' h3).1
        omega)
    simp only [(splitDiv hjn).1, (splitDiv hjn).2] at this
    exact this
  · rw [writes_out _ _ _ _ (fun m _ h => hjn (inj m h).2)]
    exact writes_in (fun m => m) (fun _ => ((0, 0) : Rg w × Rg w)) (r * c * k) (buf p) (m := i * k + j) (flatLt hi hj)
      (fun m' _ h h' => by omega)

theorem fast_one {r c : ℕ} (h : 1 < r ∨ 1 < c) : fastStride r c = 1 := by
  unfold fastStride
  rw [if_neg (by omega)]

/-- The places read by `getShare` when the last dimension is not one. -/
theorem getPair_eq {k r c : ℕ} (hc : 1 < c) {x : BShr N w} (hk : x.nbits ≤ k) {i j : ℕ} (hi : i < r * c) (hj : j < x.nbits)
    (p : Fin (N + 1)) : getPair k r c x p (i * x.nbits + j) = x.st p (i * k + j) := by
  unfold getPair
  split_ifs with h
  · rw [h]
    congr 1
    have hcs : colStride c = 1 := by unfold colStride; rw [if_neg (by omega)]
    rw [hcs, mul_one]
    unfold rowStride
    split_ifs with hr
    · subst hr
      rw [one_mul] at hi
      have : i * k + j < c * k := flatLt hi (by omega)
      rw [Nat.mod_eq_of_lt this, zero_mul, mul_zero, zero_add]
    · rw [mul_comm]
      exact Nat.div_add_mod _ _
  · rw [fast_one (Or.inr hc), one_mul, (splitDiv hj).1, (splitDiv hj).2]

/-! ## Bits -/

theorem parity_iff (hw : 0 < w) (v : Rg w) (b : Bool) :
    v.val % 2 = b.toNat ↔ ZMod.castHom (dvd_pow_self 2 (by omega : w ≠ 0)) (ZMod 2) v = (b.toNat : ZMod 2) := by
  have e : ZMod.castHom (dvd_pow_self 2 (by omega : w ≠ 0)) (ZMod 2) v = (v.val : ZMod 2) := by
    rw [ZMod.castHom_apply, ZMod.cast_eq_val]
  rw [e, ZMod.natCast_eq_natCast_iff']
  cases b <;> simp

theorem bitXor {s : ℕ} (hw : 0 < w) {b b' : Bool} {v v' m m' : Fin (N + 1) → Rg w} (h : AuthBit s key b v m)
    (g : AuthBit s key b' v' m') : AuthBit s key (b ^^ b') (fun i => v i + v' i) (fun i => m i + m' i) := by
  obtain ⟨x, hx, h⟩ := h
  obtain ⟨y, hy, g⟩ := g
  refine ⟨x + y, ?_, authAdd h g⟩
  rw [parity_iff hw] at hx hy ⊢
  rw [map_add, hx, hy]
  cases b <;> cases b' <;> decide

theorem bitZero {s : ℕ} (key : Fin (N + 1) → Rg w) : AuthBit s key false (fun _ => 0) (fun _ => 0) :=
  ⟨0, by simp, ⟨⟨0, by simp⟩, ⟨0, by simp⟩⟩⟩

theorem bitVal (hw : 0 < w) (b : Bool) : ((b.toNat : ℕ) : Rg w).val % 2 = b.toNat := by
  rw [parity_iff hw, map_natCast]

theorem bitPub {s : ℕ} (hw : 0 < w) (b : Bool) :
    AuthBit s key b (fun i => if i = 0 then ((b.toNat : ℕ) : Rg w) else 0) (fun i => ((b.toNat : ℕ) : Rg w) * key i) :=
  ⟨_, bitVal hw b, authPub 0 _⟩

theorem bitMul {s : ℕ} (hw : 0 < w) {b : Bool} (p : Bool) {v m : Fin (N + 1) → Rg w} (h : AuthBit s key b v m) :
    AuthBit s key (b && p) (fun i => v i * ((p.toNat : ℕ) : Rg w)) (fun i => m i * ((p.toNat : ℕ) : Rg w)) := by
  obtain ⟨x, hx, h⟩ := h
  refine ⟨((p.toNat : ℕ) : Rg w) * x, ?_, by simpa only [mul_comm] using authSmul ((p.toNat : ℕ) : Rg w) h⟩
  rw [parity_iff hw] at hx ⊢
  rw [map_mul, hx, map_natCast]
  cases b <;> cases p <;> decide

theorem bitPrss {s : ℕ} {b : Bool} {v m : Fin (N + 1) → Rg w} (h : AuthBit s key b v m) (a c : Fin (N + 1) → Rg w) :
    AuthBit s key b (fun i => v i + (a i - a (i + 1))) (fun i => m i + (c i - c (i + 1))) := by
  obtain ⟨x, hx, h⟩ := h
  have z : ∀ a : Fin (N + 1) → Rg w, ∑ i, (a i - a (i + 1)) = 0 := fun a => by
    have := Equiv.sum_comp (Equiv.addRight (1 : Fin (N + 1))) a
    simp only [Equiv.coe_addRight] at this
    rw [Finset.sum_sub_distrib, this, sub_self]
  refine ⟨x, hx, ⟨?_, ?_⟩⟩
  · rw [Finset.sum_add_distrib, z, add_zero]
    exact h.value
  · rw [Finset.sum_add_distrib, z, add_zero]
    exact h.tag

/-! ## Reading and making boolean shares -/

section
variable {k r c s : ℕ}

theorem makeB_ok (hc : 1 < c) {nb : ℕ} (h0 : 0 < nb) (hk : nb ≤ k) (buf : Fin (N + 1) → ℕ → Rg w × Rg w)
    {val mac : Flat N w} {B : ℕ → ℕ} (hB : ∀ i < r * c, B i < 2 ^ nb)
    (h : ∀ i < r * c, ∀ j < nb, AuthBit s key ((B i).testBit j) (fun p => val p (i * nb + j)) (fun p => mac p (i * nb + j))) :
    ∃ x, makeB k r (c * nb) nb buf val mac = some x ∧ x.nbits = nb ∧ BitShares (r * c) k s key x.nbits x.st B := by
  obtain ⟨x, e, hn, hx⟩ := makeB_places (r := r) h0 (by omega) hk buf val mac (fast_one (Or.inr hc))
  refine ⟨x, e, hn, ⟨by omega, by omega, by rw [hn]; exact hB, fun i hi j hj => ?_⟩⟩
  simp only [hx _ i hi j hj]
  split_ifs with hjn
  · exact h i hi j hjn
  · rw [Nat.testBit_lt_two_pow ((hB i hi).trans_le (Nat.pow_le_pow_right (by norm_num) (by omega)))]
    exact bitZero key

theorem get_ok (hc : 1 < c) {x : BShr N w} {B : ℕ → ℕ} (h : BitShares (r * c) k s key x.nbits x.st B) {i j : ℕ}
    (hi : i < r * c) (hj : j < x.nbits) :
    AuthBit s key ((B i).testBit j) (fun p => getVal k r c x p (i * x.nbits + j)) (fun p => getMacB k r c x p (i * x.nbits + j)) := by
  have := h.bit i hi j (lt_of_lt_of_le hj h.le)
  simpa only [getVal, getMacB, getPair_eq hc h.le hi hj] using this

theorem switch_ok (hc : 1 < c) {x : BShr N w} {B : ℕ → ℕ} (h : BitShares (r * c) k s key x.nbits x.st B) {nb i j : ℕ}
    (hi : i < r * c) (hj : j < nb) :
    AuthBit s key ((B i).testBit j) (fun p => (switchB k r c x nb).1 p (i * nb + j))
      (fun p => (switchB k r c x nb).2 p (i * nb + j)) := by
  unfold switchB
  split_ifs with e
  · subst e
    exact get_ok hc h hi hj
  · simp only [(splitDiv hj).1, (splitDiv hj).2]
    split_ifs with hm
    · exact get_ok hc h hi (by omega)
    · rw [Nat.testBit_lt_two_pow ((h.small i hi).trans_le (Nat.pow_le_pow_right (by norm_num) (by omega)))]
      exact bitZero key

/-! ## Local kernels -/

theorem c63_xor_bb (hw : 0 < w) (hc : 1 < c) {x y : BShr N w} {X Y : ℕ → ℕ} (hx : BitShares (r * c) k s key x.nbits x.st X)
    (hy : BitShares (r * c) k s key y.nbits y.st Y) (buf : Fin (N + 1) → ℕ → Rg w × Rg w) :
    ∃ z, xorBB k r c buf x y = some z ∧ z.nbits = max x.nbits y.nbits ∧
      BitShares (r * c) k s key z.nbits z.st fun i => X i ^^^ Y i := by
  refine makeB_ok hc (lt_max_of_lt_left hx.pos) (max_le hx.le hy.le) buf (fun i hi => ?_) fun i hi j hj => ?_
  · exact Nat.xor_lt_two_pow ((hx.small i hi).trans_le (Nat.pow_le_pow_right (by norm_num) (le_max_left _ _)))
      ((hy.small i hi).trans_le (Nat.pow_le_pow_right (by norm_num) (le_max_right _ _)))
  · rw [Nat.testBit_xor]
    exact bitXor hw (switch_ok hc hx hi hj) (switch_ok hc hy hi hj)

theorem maxBW_le {pf n : ℕ} {p : ℕ → ℕ} (hn : n ≠ 0) {k : ℕ} (h : ∀ i < n, p i < 2 ^ k) : maxBitWidth pf n p ≤ k := by
  unfold maxBitWidth
  rw [if_neg hn]
  exact Finset.sup_le fun i hi => Nat.size_le.2 (h i (Finset.mem_range.1 hi))

theorem maxBW_lt {pf n : ℕ} {p : ℕ → ℕ} {i : ℕ} (hi : i < n) : p i < 2 ^ maxBitWidth pf n p := by
  unfold maxBitWidth
  rw [if_neg (by omega)]
  exact Nat.size_le.1 (Finset.le_sup (f := fun i => Nat.size (p i)) (Finset.mem_range.2 hi))

theorem shiftBit (a j : ℕ) : a / 2 ^ j % 2 = (a.testBit j).toNat := (Nat.toNat_testBit a j).symm

theorem c63_xor_bp (hw : 0 < w) (hr : 0 < r) (hc : 1 < c) {x : BShr N w} {X p : ℕ → ℕ}
    (hx : BitShares (r * c) k s key x.nbits x.st X) (hp : ∀ i < r * c, p i < 2 ^ k) (pf : ℕ)
    (buf : Fin (N + 1) → ℕ → Rg w × Rg w) :
    ∃ z, xorBP k r c pf key buf x p = some z ∧ BitShares (r * c) k s key z.nbits z.st fun i => X i ^^^ p i := by
  have hn : r * c ≠ 0 := Nat.mul_ne_zero (by omega) (by omega)
  have hm := maxBW_le (pf := pf) hn hp
  have h0 := hx.pos
  have hk := hx.le
  set nb := max x.nbits (maxBitWidth pf (r * c) p) with hnb
  have hv : (p2Value (w := w) k pf (r * c) p nb).1 = nb := by
    unfold p2Value
    simp only
    split_ifs <;> omega
  have hb : ∀ i j, j < nb → (p2Value (w := w) k pf (r * c) p nb).2 (i * nb + j) = (((p i).testBit j).toNat : ℕ) := by
    intro i j hj
    unfold p2Value at hv ⊢
    simp only at hv ⊢
    rw [hv, (splitDiv hj).1, (splitDiv hj).2, shiftBit]
  obtain ⟨z, hz, -, h⟩ := makeB_ok (s := s) (key := key) (r := r) (k := k) hc (nb := nb) (by omega) (by omega) buf
    (val := fun i m => (switchB k r c x nb).1 i m + if i = 0 then (p2Value (w := w) k pf (r * c) p nb).2 m else 0)
    (mac := fun i m => (p2Value (w := w) k pf (r * c) p nb).2 m * key i + (switchB k r c x nb).2 i m)
    (B := fun i => X i ^^^ p i)
    (fun i hi => Nat.xor_lt_two_pow ((hx.small i hi).trans_le (Nat.pow_le_pow_right (by norm_num) (le_max_left _ _)))
      ((maxBW_lt (pf := pf) hi).trans_le (Nat.pow_le_pow_right (by norm_num) (le_max_right _ _))))
    (fun i hi j hj => by
      rw [Nat.testBit_xor]
      have := bitXor hw (switch_ok hc hx hi hj) (bitPub (s := s) (key := key) hw ((p i).testBit j))
      simp only [hb i j hj]
      simpa only [add_comm] using this)
  refine ⟨z, ?_, h⟩
  unfold xorBP
  simp only
  rw [← hnb, guard_bind hv]
  exact hz

theorem c63_and_bp (hw : 0 < w) (hc : 1 < c) {x : BShr N w} {X p : ℕ → ℕ} (hx : BitShares (r * c) k s key x.nbits x.st X)
    (hp : ∃ i < r * c, p i ≠ 0) (pf : ℕ) (buf : Fin (N + 1) → ℕ → Rg w × Rg w) :
    ∃ z, andBP k r c pf buf x p = some z ∧ BitShares (r * c) k s key z.nbits z.st fun i => X i &&& p i := by
  obtain ⟨i0, hi0, hp⟩ := hp
  have hm : 0 < maxBitWidth pf (r * c) p := by
    rw [Nat.pos_iff_ne_zero]
    intro h
    have := maxBW_lt (pf := pf) (p := p) hi0
    rw [h] at this
    omega
  have h0 := hx.pos
  have hk := hx.le
  set nb := min x.nbits (maxBitWidth pf (r * c) p) with hnb
  have hv : (p2Value (w := w) k pf (r * c) p nb).1 = nb := by
    unfold p2Value
    simp only
    split_ifs <;> omega
  have hb : ∀ i j, j < nb → (p2Value (w := w) k pf (r * c) p nb).2 (i * nb + j) = (((p i).testBit j).toNat : ℕ) := by
    intro i j hj
    unfold p2Value at hv ⊢
    simp only at hv ⊢
    rw [hv, (splitDiv hj).1, (splitDiv hj).2, shiftBit]
  obtain ⟨z, hz, -, h⟩ := makeB_ok (s := s) (key := key) (r := r) (k := k) hc (nb := nb) (by omega) (by omega) buf
    (val := fun i m => (switchB k r c x nb).1 i m * (p2Value (w := w) k pf (r * c) p nb).2 m)
    (mac := fun i m => (switchB k r c x nb).2 i m * (p2Value (w := w) k pf (r * c) p nb).2 m)
    (B := fun i => X i &&& p i)
    (fun i hi => by
      rcases le_total x.nbits (maxBitWidth pf (r * c) p) with h | h
      · rw [hnb, min_eq_left h]
        exact lt_of_le_of_lt Nat.and_le_left (hx.small i hi)
      · rw [hnb, min_eq_right h]
        exact lt_of_le_of_lt Nat.and_le_right (maxBW_lt hi))
    (fun i hi j hj => by
      rw [Nat.testBit_and]
      have := bitMul hw ((p i).testBit j) (switch_ok hc hx hi hj)
      simp only [hb i j hj]
      exact this)
  refine ⟨z, ?_, h⟩
  unfold andBP
  simp only
  rw [← hnb, guard_bind (by rw [hv])]
  exact hz

/-- FINDING: a public operand that is zero everywhere is a division by zero. -/
theorem c63_and_zero (hr : 0 < r) (hc : 0 < c) (x : BShr N w) (pf : ℕ) (buf : Fin (N + 1) → ℕ → Rg w × Rg w) :
    andBP k r c pf buf x (fun _ => 0) = none := by
  have hm : maxBitWidth pf (r * c) (fun _ => 0) = 0 := by
    unfold maxBitWidth
    rw [if_neg (Nat.mul_ne_zero (by omega) (by omega))]
    simp
  unfold andBP makeB
  simp only [hm, Nat.min_zero]
  cases h : (guard (r * c * 0 = r * c * (p2Value (w := w) k pf (r * c) (fun _ => 0) 0).1) : Option Unit) with
  | none => rfl
  | some _ => rfl

theorem c63_p2b_zero (hr : 0 < r) (hc : 0 < c) (pf : ℕ) (key : Fin (N + 1) → Rg w) (rnd rndMac : Flat N w)
    (buf : Fin (N + 1) → ℕ → Rg w × Rg w) : p2b k r c pf key rnd rndMac buf (fun _ => 0) = none := by
  have hm : maxBitWidth pf (r * c) (fun _ => 0) = 0 := by
    unfold maxBitWidth
    rw [if_neg (Nat.mul_ne_zero (by omega) (by omega))]
    simp
  unfold p2b makeB p2Value
  simp only [hm, Nat.min_zero, if_true, mul_zero, Nat.zero_div]
  rw [guard_bind (Nat.mul_ne_zero (by omega) (by omega))]
  rfl

theorem c63_p2b (hw : 0 < w) (hk : 0 < k) (hc : 1 < c) {p : ℕ → ℕ} (hp : ∃ i < r * c, p i ≠ 0) (pf : ℕ) (rnd rndMac : Flat N w)
    (buf : Fin (N + 1) → ℕ → Rg w × Rg w) :
    ∃ z, p2b k r c pf key rnd rndMac buf p = some z ∧ BitShares (r * c) k s key z.nbits z.st fun i => p i % 2 ^ k := by
  obtain ⟨i0, hi0, hp⟩ := hp
  have hm : 0 < maxBitWidth pf (r * c) p := by
    rw [Nat.pos_iff_ne_zero]
    intro h
    have := maxBW_lt (pf := pf) (p := p) hi0
    rw [h] at this
    omega
  set v := min k (maxBitWidth pf (r * c) p) with hv
  have hb : ∀ i j, j < v → (p2Value (w := w) k pf (r * c) p 0).2 (i * v + j) = (((p i % 2 ^ k).testBit j).toNat : ℕ) := by
    intro i j hj
    unfold p2Value
    simp only [if_true]
    rw [← hv, (splitDiv hj).1, (splitDiv hj).2, shiftBit, Nat.testBit_mod_two_pow, decide_eq_true (by omega : j < k), Bool.true_and]
  have hn : r * c ≠ 0 := by omega
  have e : r * (c * v) / (r * c) = v := by
    rw [← mul_assoc]
    exact Nat.mul_div_cancel_left v (by omega)
  obtain ⟨z, hz, -, h⟩ := makeB_ok (s := s) (key := key) (r := r) (k := k) hc (nb := v) (by omega) (by omega) buf
    (val := fun i m => (if i = 0 then (p2Value (w := w) k pf (r * c) p 0).2 m else 0) + (rnd i m - rnd (i + 1) m))
    (mac := fun i m => (p2Value (w := w) k pf (r * c) p 0).2 m * key i + (rndMac i m - rndMac (i + 1) m))
    (B := fun i => p i % 2 ^ k)
    (fun i hi => by
      rcases le_total k (maxBitWidth pf (r * c) p) with h | h
      · rw [hv, min_eq_left h]
        exact Nat.mod_lt _ (by positivity)
      · rw [hv, min_eq_right h]
        exact lt_of_le_of_lt (Nat.mod_le _ _) (maxBW_lt hi))
    (fun i hi j hj => by
      simp only [hb i j hj]
      exact bitPrss (bitPub (s := s) (key := key) hw ((p i % 2 ^ k).testBit j)) (fun q => rnd q (i * v + j))
        (fun q => rndMac q (i * v + j)))
  refine ⟨z, ?_, h⟩
  unfold p2b
  simp only
  rw [guard_bind hn]
  have hv2 : (p2Value (w := w) k pf (r * c) p 0).1 = v := by
    unfold p2Value
    simp only [if_true]
    exact hv.symm
  rw [hv2, e]
  exact hz

theorem c63_not (hw : 0 < w) (hc : 1 < c) {x : BShr N w} {X : ℕ → ℕ} (hx : BitShares (r * c) k s key x.nbits x.st X)
    (buf : Fin (N + 1) → ℕ → Rg w × Rg w) :
    ∃ z, notB k r c key buf x = some z ∧ z.nbits = x.nbits ∧
      BitShares (r * c) k s key z.nbits z.st fun i => 2 ^ x.nbits - 1 - X i := by
  refine makeB_ok hc hx.pos hx.le buf (fun i hi => ?_) fun i hi j hj => ?_
  · have : 0 < 2 ^ x.nbits := by positivity
    omega
  · have e : 2 ^ x.nbits - 1 - X i = 2 ^ x.nbits - (X i + 1) := by omega
    rw [e, Nat.testBit_two_pow_sub_succ (hx.small i hi), decide_eq_true hj, Bool.true_and]
    have := bitXor hw (get_ok hc hx hi hj) (bitPub (s := s) (key := key) hw true)
    simp only [Bool.xor_true, Bool.toNat_true, Nat.cast_one] at this
    simpa only [add_comm] using this

theorem c63_bitrev (hc : 1 < c) {x : BShr N w} {X : ℕ → ℕ} (hx : BitShares (r * c) k s key x.nbits x.st X)
    {start stop : ℕ} (h1 : start ≤ stop) (h2 : stop ≤ x.nbits) (buf : Fin (N + 1) → ℕ → Rg w × Rg w) :
    ∃ z Z, bitrevB k r c start stop buf x = some z ∧ BitShares (r * c) k s key z.nbits z.st Z ∧
      ∀ i < r * c, ∀ j, (Z i).testBit j = (X i).testBit (if start ≤ j ∧ j < stop then stop + start - 1 - j else j) := by
  set f : ℕ → ℕ → Bool := fun i j => (X i).testBit (if start ≤ j ∧ j < stop then stop + start - 1 - j else j) with hf
  have hlt : ∀ i < r * c, ∀ j, (Nat.ofBits (fun j : Fin x.nbits => f i j)).testBit j = f i j := by
    intro i hi j
    by_cases hj : j < x.nbits
    · rw [Nat.testBit_ofBits_lt _ _ hj]
    · rw [Nat.testBit_ofBits_ge _ _ (by omega), hf]
      simp only
      rw [if_neg (by omega), Nat.testBit_lt_two_pow ((hx.small i hi).trans_le (Nat.pow_le_pow_right (by norm_num) (by omega)))]
  set src : ℕ → ℕ := fun m => let j := m % x.nbits
    if start ≤ j ∧ j < stop then m / x.nbits * x.nbits + stop + start - j - 1 else m with hsrc
  obtain ⟨z, hz, hzn, h⟩ := makeB_ok (s := s) (key := key) (r := r) (k := k) hc hx.pos hx.le buf
    (val := fun i m => getVal k r c x i (src m)) (mac := fun i m => getMacB k r c x i (src m))
    (B := fun i => Nat.ofBits (fun j : Fin x.nbits => f i j)) (fun i _ => Nat.ofBits_lt_two_pow _) (fun i hi j hj => by
      rw [hlt i hi j]
      have e : src (i * x.nbits + j) = i * x.nbits + if start ≤ j ∧ j < stop then stop + start - 1 - j else j := by
        rw [hsrc]
        simp only [(splitDiv hj).1, (splitDiv hj).2]
        split_ifs <;> omega
      simp only [e]
      exact get_ok hc hx hi (by split_ifs <;> omega))
  refine ⟨z, _, ?_, h, hlt⟩
  unfold bitrevB
  rw [guard_bind h1, guard_bind h2]
  exact hz

theorem zeroBits (hc : 1 < c) (hk : 0 < k) (buf : Fin (N + 1) → ℕ → Rg w × Rg w) :
    ∃ z, makeB k r c 1 buf (0 : Flat N w) 0 = some z ∧ z.nbits = 1 ∧ BitShares (r * c) k s key z.nbits z.st fun _ => 0 := by
  have := makeB_ok (s := s) (key := key) (r := r) (k := k) hc (nb := 1) (by omega) hk buf (val := (0 : Flat N w)) (mac := 0)
    (B := fun _ => 0) (fun _ _ => by norm_num) (fun i _ j _ => by rw [Nat.zero_testBit]; exact bitZero key)
  rwa [mul_one] at this

theorem c63_lshift (hc : 1 < c) {x : BShr N w} {X : ℕ → ℕ} (hx : BitShares (r * c) k s key x.nbits x.st X) (bits : ℕ)
    (buf : Fin (N + 1) → ℕ → Rg w × Rg w) :
    ∃ z, lshiftB k r c bits buf x = some z ∧ BitShares (r * c) k s key z.nbits z.st fun i => (X i <<< bits) % 2 ^ k := by
  have h0 := hx.pos
  have hk := hx.le
  have hlt : ∀ i < r * c, X i < 2 ^ k := fun i hi => (hx.small i hi).trans_le (Nat.pow_le_pow_right (by norm_num) hk)
  unfold lshiftB
  by_cases hb0 : bits = 0
  · subst hb0
    have e : (if (0 : ℕ) ≥ k then 1 else if x.nbits + 0 > k then k else x.nbits + 0) = x.nbits := by
      rw [if_neg (by omega), if_neg (by omega)]
      rfl
    simp only [e, if_true]
    obtain ⟨z, hz, -, h⟩ := makeB_ok (s := s) (key := key) (r := r) (k := k) hc hx.pos hx.le buf (val := getVal k r c x)
      (mac := getMacB k r c x) (B := fun i => (X i <<< 0) % 2 ^ k)
      (fun i hi => by rw [Nat.shiftLeft_zero, Nat.mod_eq_of_lt (hlt i hi)]; exact hx.small i hi)
      (fun i hi j hj => by rw [Nat.shiftLeft_zero, Nat.mod_eq_of_lt (hlt i hi)]; exact get_ok hc hx hi hj)
    exact ⟨z, hz, h⟩
  · by_cases hbk : bits ≥ k
    · simp only [if_neg hb0, if_pos hbk]
      obtain ⟨z, hz, -, h⟩ := zeroBits (s := s) (key := key) (r := r) hc (by omega : 0 < k) buf
      refine ⟨z, hz, ?_⟩
      have e : (fun i => X i <<< bits % 2 ^ k) = fun _ => 0 := by
        funext i
        rw [Nat.shiftLeft_eq]
        exact Nat.mod_eq_zero_of_dvd (Dvd.dvd.mul_left (pow_dvd_pow 2 hbk) _)
      rw [e]
      exact h
    · simp only [if_neg hb0, if_neg hbk]
      set nb := if x.nbits + bits > k then k else x.nbits + bits with hnb
      have hnbk : nb ≤ k := by rw [hnb]; split_ifs <;> omega
      have hnb0 : bits < nb := by rw [hnb]; split_ifs <;> omega
      have hnb2 : nb ≤ x.nbits + bits := by rw [hnb]; split_ifs <;> omega
      obtain ⟨z, hz, -, h⟩ := makeB_ok (s := s) (key := key) (r := r) (k := k) hc (nb := nb) (by omega) hnbk buf
        (val := fun i m => if bits ≤ m % nb then getVal k r c x i (m / nb * x.nbits + (m % nb - bits)) else 0)
        (mac := fun i m => if bits ≤ m % nb then getMacB k r c x i (m / nb * x.nbits + (m % nb - bits)) else 0)
        (B := fun i => (X i <<< bits) % 2 ^ k)
        (fun i hi => by
          rw [Nat.shiftLeft_eq]
          by_cases h : x.nbits + bits > k
          · rw [hnb, if_pos h]
            exact Nat.mod_lt _ (by positivity)
          · rw [hnb, if_neg h]
            refine lt_of_le_of_lt (Nat.mod_le _ _) ?_
            rw [pow_add]
            exact Nat.mul_lt_mul_of_pos_right (hx.small i hi) (by positivity))
        (fun i hi j hj => by
          rw [Nat.testBit_mod_two_pow, decide_eq_true (by omega : j < k), Bool.true_and, Nat.testBit_shiftLeft]
          simp only [(splitDiv hj).1, (splitDiv hj).2]
          by_cases hjb : bits ≤ j
          · simp only [if_pos hjb, decide_eq_true (show j ≥ bits from hjb), Bool.true_and]
            exact get_ok hc hx hi (by omega)
          · simp only [if_neg hjb, decide_eq_false (show ¬ j ≥ bits from hjb), Bool.false_and]
            exact bitZero key)
      exact ⟨z, hz, h⟩

theorem c63_rshift (hc : 1 < c) {x : BShr N w} {X : ℕ → ℕ} (hx : BitShares (r * c) k s key x.nbits x.st X) (bits : ℕ)
    (buf : Fin (N + 1) → ℕ → Rg w × Rg w) :
    ∃ z, rshiftB k r c bits buf x = some z ∧ BitShares (r * c) k s key z.nbits z.st fun i => X i >>> bits := by
  have h0 := hx.pos
  have hk := hx.le
  unfold rshiftB
  by_cases hb0 : bits = 0
  · subst hb0
    simp only [gt_iff_lt, if_pos h0, if_true, Nat.sub_zero]
    obtain ⟨z, hz, -, h⟩ := makeB_ok (s := s) (key := key) (r := r) (k := k) hc hx.pos hx.le buf (val := getVal k r c x)
      (mac := getMacB k r c x) (B := fun i => X i >>> 0) (fun i hi => hx.small i hi) (fun i hi j hj => get_ok hc hx hi hj)
    exact ⟨z, hz, h⟩
  · by_cases hbk : x.nbits ≤ bits
    · simp only [if_neg hb0, if_pos hbk, if_neg (show ¬ x.nbits > bits by omega)]
      obtain ⟨z, hz, hn, h⟩ := zeroBits (s := s) (key := key) (r := r) hc (by omega : 0 < k) buf
      have e : ∀ i < r * c, X i >>> bits = 0 := fun i hi => by
        rw [Nat.shiftRight_eq_div_pow]
        exact Nat.div_eq_of_lt ((hx.small i hi).trans_le (Nat.pow_le_pow_right (by norm_num) hbk))
      exact ⟨z, hz, ⟨h.pos, h.le, fun i hi => by rw [e i hi]; exact h.small i hi, fun i hi j hj => by rw [e i hi]; exact h.bit i hi j hj⟩⟩
    · simp only [if_neg hb0, if_neg hbk, if_pos (show x.nbits > bits by omega)]
      obtain ⟨z, hz, -, h⟩ := makeB_ok (s := s) (key := key) (r := r) (k := k) hc (nb := x.nbits - bits) (by omega) (by omega) buf
        (val := fun i m => getVal k r c x i (m / (x.nbits - bits) * x.nbits + bits + m % (x.nbits - bits)))
        (mac := fun i m => getMacB k r c x i (m / (x.nbits - bits) * x.nbits + bits + m % (x.nbits - bits)))
        (B := fun i => X i >>> bits)
        (fun i hi => by
          rw [Nat.shiftRight_eq_div_pow]
          refine Nat.div_lt_of_lt_mul ?_
          rw [← pow_add, show bits + (x.nbits - bits) = x.nbits by omega]
          exact hx.small i hi)
        (fun i hi j hj => by
          rw [Nat.testBit_shiftRight]
          simp only [(splitDiv hj).1, (splitDiv hj).2, add_assoc]
          exact get_ok hc hx hi (by omega))
      exact ⟨z, hz, h⟩

theorem c63_arshift (hc : 1 < c) {x : BShr N w} {X : ℕ → ℕ} (hx : BitShares (r * c) k s key x.nbits x.st X) (bits : ℕ)
    (buf : Fin (N + 1) → ℕ → Rg w × Rg w) :
    ∃ z, arshiftB k r c bits buf x = some z ∧
      BitShares (r * c) k s key z.nbits z.st fun i => ((BitVec.ofNat k (X i)).sshiftRight bits).toNat := by
  have h0 := hx.pos
  have hk := hx.le
  have hlt : ∀ i < r * c, X i < 2 ^ k := fun i hi => (hx.small i hi).trans_le (Nat.pow_le_pow_right (by norm_num) hk)
  unfold arshiftB
  by_cases hn : x.nbits = k
  · rw [if_neg (by simpa using hn)]
    have hbit : ∀ i < r * c, ∀ j < k, (((BitVec.ofNat k (X i)).sshiftRight bits).toNat).testBit j =
        (X i).testBit (if bits + j < k then bits + j else k - 1) := by
      intro i hi j hj
      rw [BitVec.testBit_toNat, BitVec.getLsbD_sshiftRight]
      have e : decide (k ≤ j) = false := decide_eq_false (by omega)
      rw [e, Bool.not_false, Bool.true_and]
      split_ifs with h
      · rw [BitVec.getLsbD_ofNat, decide_eq_true h, Bool.true_and]
      · rw [BitVec.msb_eq_getLsbD_last, BitVec.getLsbD_ofNat, decide_eq_true (by omega : k - 1 < k), Bool.true_and]
    by_cases hb0 : bits = 0
    · subst hb0
      simp only [if_true]
      obtain ⟨z, hz, -, h⟩ := makeB_ok (s := s) (key := key) (r := r) (k := k) hc hx.pos hx.le buf (val := getVal k r c x)
        (mac := getMacB k r c x) (B := fun i => ((BitVec.ofNat k (X i)).sshiftRight 0).toNat)
        (fun i hi => by rw [hn]; exact BitVec.isLt _)
        (fun i hi j hj => by
          rw [hbit i hi j (by omega), if_pos (by omega), zero_add]
          exact get_ok hc hx hi hj)
      rw [hn] at hz ⊢
      exact ⟨z, hz, h⟩
    · simp only [if_neg hb0]
      set o1 := if bits < x.nbits then bits else x.nbits with ho1
      set o2 := if bits < x.nbits then x.nbits - bits else 0 with ho2
      have h12 : o2 = x.nbits - bits := by rw [ho2]; split_ifs <;> omega
      obtain ⟨z, hz, -, h⟩ := makeB_ok (s := s) (key := key) (r := r) (k := k) hc hx.pos hx.le buf
        (val := fun i m => if m % x.nbits < o2 then getVal k r c x i (m / x.nbits * x.nbits + o1 + m % x.nbits)
          else getVal k r c x i ((m / x.nbits + 1) * x.nbits - 1))
        (mac := fun i m => if m % x.nbits < o2 then getMacB k r c x i (m / x.nbits * x.nbits + o1 + m % x.nbits)
          else getMacB k r c x i ((m / x.nbits + 1) * x.nbits - 1))
        (B := fun i => ((BitVec.ofNat k (X i)).sshiftRight bits).toNat)
        (fun i hi => by rw [hn]; exact BitVec.isLt _)
        (fun i hi j hj => by
          rw [hbit i hi j (by omega)]
          simp only [(splitDiv hj).1, (splitDiv hj).2]
          by_cases hjo : j < o2
          · have e1 : o1 = bits := by rw [ho1, if_pos (by omega)]
            simp only [if_pos hjo, if_pos (show bits + j < k by omega), e1, add_assoc]
            exact get_ok hc hx hi (by omega)
          · have e2 : (i + 1) * x.nbits - 1 = i * x.nbits + (k - 1) := by
              rw [add_mul, one_mul]
              omega
            simp only [if_neg hjo, if_neg (show ¬ bits + j < k by omega), e2]
            exact get_ok hc hx hi (by omega))
      rw [hn] at hz ⊢
      exact ⟨z, hz, h⟩
  · rw [if_pos hn]
    obtain ⟨z, hz, h⟩ := c63_rshift hc hx bits buf
    refine ⟨z, hz, ?_⟩
    have e : ∀ i < r * c, ((BitVec.ofNat k (X i)).sshiftRight bits).toNat = X i >>> bits := fun i hi => by
      have hm : (BitVec.ofNat k (X i)).msb = false := by
        rw [BitVec.msb_eq_getLsbD_last, BitVec.getLsbD_ofNat,
          Nat.testBit_lt_two_pow ((hx.small i hi).trans_le (Nat.pow_le_pow_right (by norm_num) (by omega))), Bool.and_false]
      rw [BitVec.sshiftRight_eq_of_msb_false hm, BitVec.toNat_ushiftRight, BitVec.toNat_ofNat, Nat.mod_eq_of_lt (hlt i hi)]
    exact ⟨h.pos, h.le, fun i hi => by rw [e i hi]; exact h.small i hi, fun i hi j hj => by rw [e i hi]; exact h.bit i hi j hj⟩

/-! ## Openings -/

theorem openBits_ok (hs : 1 + s ≤ w) {n : ℕ} {val mac : Flat N w} {V : ℕ → Rg w} (h : AuthFlat (s + 1) n key V (val, mac))
    {mask : All N n w × All N n w} {R : Vec n w} (hm : AuthArr (1 + s) key R mask) (pub : Vec n w) :
    ∃ o, openBits s n key mask pub val mac = some o ∧ ∀ m < n, o m = (((V m).val % 2 : ℕ) : Rg w) := by
  have ha : AuthArr (1 + s) key (fun j : Fin n => V j) (cut n val, cut n mac) := fun j => by
    rw [show 1 + s = s + 1 from add_comm _ _]
    exact h j j.2
  refine ⟨fun j => low 1 (ext (batchOpen 1 (cut n val) (cut n mac) mask 0).1 j), ?_, fun m hm' => ?_⟩
  · unfold openBits
    simp only
    rw [guard_bind (openCheck_ok (by omega) hs ha hm pub)]
  · have := (batchOpen_ok ha hm ⟨m, hm'⟩).1
    rw [eqv_iff (by omega)] at this
    unfold ext low
    simp only
    rw [dif_pos hm']
    congr 1
    rw [pow_one] at this ⊢
    simp only at this
    omega

theorem openBits_bit (hs : 1 + s ≤ w) {n : ℕ} {val mac : Flat N w} {β : ℕ → Bool}
    (h : ∀ m < n, AuthBit s key (β m) (fun p => val p m) (fun p => mac p m)) {mask : All N n w × All N n w} {R : Vec n w}
    (hm : AuthArr (1 + s) key R mask) (pub : Vec n w) :
    ∃ o, openBits s n key mask pub val mac = some o ∧ ∀ m < n, o m = (((β m).toNat : ℕ) : Rg w) := by
  have hex : ∀ m, ∃ v : Rg w, m < n → v.val % 2 = (β m).toNat ∧ Auth (s + 1) key v (fun p => val p m) (fun p => mac p m) := by
    intro m
    by_cases hm : m < n
    · obtain ⟨v, h1, h2⟩ := h m hm
      exact ⟨v, fun _ => ⟨h1, h2⟩⟩
    · exact ⟨0, fun h => absurd h hm⟩
  choose V hV using hex
  obtain ⟨o, ho, h2⟩ := openBits_ok hs (V := V) (fun m hm => (hV m hm).2) hm pub
  exact ⟨o, ho, fun m hm => by rw [h2 m hm, (hV m hm).1]⟩

theorem orFold (g : ℕ → ℕ) (β : ℕ → Bool) (l : ℕ) (h : ∀ j < l, g j = (β j).toNat) (q : ℕ) :
    ((List.range l).foldl (fun acc j => acc ||| g j <<< j) 0).testBit q = (decide (q < l) && β q) := by
  induction l with
  | zero => simp
  | succ l ih =>
    rw [List.range_succ, List.foldl_append, List.foldl_cons, List.foldl_nil, Nat.testBit_or, ih fun j hj => h j (by omega),
      h l (by omega), Nat.testBit_shiftLeft]
    rcases lt_trichotomy q l with hq | hq | hq
    · rw [decide_eq_true hq, decide_eq_true (by omega : q < l + 1), decide_eq_false (by omega : ¬ q ≥ l), Bool.false_and, Bool.or_false]
    · subst hq
      cases β q <;> simp
    · rw [decide_eq_false (by omega : ¬ q < l), decide_eq_false (by omega : ¬ q < l + 1)]
      have : 0 < q - l := by omega
      cases β l
      · simp
      · rw [Bool.toNat_true, Nat.testBit_one_eq_true_iff_self_eq_zero.not.2 (by omega) |> Bool.eq_false_of_not_eq_true]
        simp

theorem bitCastVal (hw : 0 < w) (b : Bool) : ((b.toNat : ℕ) : Rg w).val = b.toNat := by
  rw [ZMod.val_natCast]
  refine Nat.mod_eq_of_lt (lt_of_le_of_lt (Bool.toNat_le b) ?_)
  exact Nat.one_lt_two_pow (by omega)

theorem b2p_bits (hs : 1 + s ≤ w) {x : BShr N w} {β : ℕ → ℕ → Bool}
    (h : ∀ i < r * c, ∀ j < x.nbits, AuthBit s key (β i j) (fun p => getVal k r c x p (i * x.nbits + j))
      (fun p => getMacB k r c x p (i * x.nbits + j))) (h0 : 0 < x.nbits)
    {mask : All N (r * c * x.nbits) w × All N (r * c * x.nbits) w} {R : Vec (r * c * x.nbits) w}
    (hm : AuthArr (1 + s) key R mask) (pub : Vec (r * c * x.nbits) w) :
    ∃ t, b2p k r c s key x mask pub = some t ∧ ∀ i < r * c, ∀ j, (t i).testBit j = (decide (j < x.nbits) && β i j) := by
  obtain ⟨o, ho, h2⟩ := openBits_bit hs (key := key) (β := fun m => β (m / x.nbits) (m % x.nbits)) (val := getVal k r c x)
    (mac := getMacB k r c x) (n := r * c * x.nbits) (fun m hm => by
      have := h (m / x.nbits) (Nat.div_lt_of_lt_mul (by rw [mul_comm]; exact hm)) (m % x.nbits) (Nat.mod_lt _ h0)
      rw [mul_comm (m / x.nbits), Nat.div_add_mod] at this
      exact this) hm pub
  refine ⟨_, by unfold b2p; rw [ho]; rfl, fun i hi j => ?_⟩
  refine orFold _ (β i) _ (fun q hq => ?_) j
  rw [h2 _ (flatLt hi hq), (splitDiv hq).1, (splitDiv hq).2, bitCastVal (by omega)]

theorem c63_b2p (hs : 1 + s ≤ w) (hc : 1 < c) {x : BShr N w} {X : ℕ → ℕ} (hx : BitShares (r * c) k s key x.nbits x.st X)
    {mask : All N (r * c * x.nbits) w × All N (r * c * x.nbits) w} {R : Vec (r * c * x.nbits) w}
    (hm : AuthArr (1 + s) key R mask) (pub : Vec (r * c * x.nbits) w) :
    ∃ t, b2p k r c s key x mask pub = some t ∧ ∀ i < r * c, t i = X i := by
  obtain ⟨t, ht, h⟩ := b2p_bits hs (β := fun i j => (X i).testBit j) (fun i hi j hj => get_ok hc hx hi hj) hx.pos hm pub
  refine ⟨t, ht, fun i hi => Nat.eq_of_testBit_eq fun j => ?_⟩
  rw [h i hi]
  by_cases hj : j < x.nbits
  · rw [decide_eq_true hj, Bool.true_and]
  · rw [decide_eq_false hj, Bool.false_and,
      Nat.testBit_lt_two_pow ((hx.small i hi).trans_le (Nat.pow_le_pow_right (by norm_num) (by omega)))]

theorem c63_and_bb (hs : 1 + s ≤ w) (hc : 1 < c) {x y : BShr N w} {X Y : ℕ → ℕ} (hx : BitShares (r * c) k s key x.nbits x.st X)
    (hy : BitShares (r * c) k s key y.nbits y.st Y) {a b t : Flat N w × Flat N w} {mask mask' : (n : ℕ) → All N n w × All N n w}
    (ht : Triple s (r * c * min x.nbits y.nbits) key a b t (mask _) (mask' _)) (pub pub' : (n : ℕ) → Vec n w)
    (buf : Fin (N + 1) → ℕ → Rg w × Rg w) :
    ∃ z, andBB k r c s key a b t mask mask' pub pub' buf x y = some z ∧ z.nbits = min x.nbits y.nbits ∧
      BitShares (r * c) k s key z.nbits z.st fun i => X i &&& Y i := by
  obtain ⟨A, B, hA, hB, hT, ⟨R, hR⟩, R', hR'⟩ := ht
  have hw : 0 < w := by omega
  have h0 := hx.pos
  have h0' := hy.pos
  have hk := hx.le
  set nb := min x.nbits y.nbits with hnb
  have hnb0 : 0 < nb := by omega
  have bx : ∀ m < r * c * nb, ∃ v : Rg w, v.val % 2 = ((X (m / nb)).testBit (m % nb)).toNat ∧
      Auth (s + 1) key v (fun p => (switchB k r c x nb).1 p m) (fun p => (switchB k r c x nb).2 p m) := fun m hm => by
    have := switch_ok hc hx (i := m / nb) (Nat.div_lt_of_lt_mul (by rw [mul_comm]; exact hm)) (Nat.mod_lt m hnb0)
    rw [mul_comm (m / nb), Nat.div_add_mod] at this
    exact this
  have cy : ∀ m < r * c * nb, ∃ v : Rg w, v.val % 2 = ((Y (m / nb)).testBit (m % nb)).toNat ∧
      Auth (s + 1) key v (fun p => (switchB k r c y nb).1 p m) (fun p => (switchB k r c y nb).2 p m) := fun m hm => by
    have := switch_ok hc hy (i := m / nb) (Nat.div_lt_of_lt_mul (by rw [mul_comm]; exact hm)) (Nat.mod_lt m hnb0)
    rw [mul_comm (m / nb), Nat.div_add_mod] at this
    exact this
  have ex : ∃ VX : ℕ → Rg w, ∀ m < r * c * nb, (VX m).val % 2 = ((X (m / nb)).testBit (m % nb)).toNat ∧
      Auth (s + 1) key (VX m) (fun p => (switchB k r c x nb).1 p m) (fun p => (switchB k r c x nb).2 p m) :=
    ⟨fun m => if h : m < r * c * nb then (bx m h).choose else 0, fun m hm => by simp only; rw [dif_pos hm]; exact (bx m hm).choose_spec⟩
  have ey : ∃ VY : ℕ → Rg w, ∀ m < r * c * nb, (VY m).val % 2 = ((Y (m / nb)).testBit (m % nb)).toNat ∧
      Auth (s + 1) key (VY m) (fun p => (switchB k r c y nb).1 p m) (fun p => (switchB k r c y nb).2 p m) :=
    ⟨fun m => if h : m < r * c * nb then (cy m h).choose else 0, fun m hm => by simp only; rw [dif_pos hm]; exact (cy m hm).choose_spec⟩
  obtain ⟨VX, hVX⟩ := ex
  obtain ⟨VY, hVY⟩ := ey
  obtain ⟨pe, hpe, he⟩ := openBits_ok hs (key := key) (V := fun m => VX m - A m) (val := (switchB k r c x nb).1 - a.1)
    (mac := (switchB k r c x nb).2 - a.2) (fun m hm => authSub (hVX m hm).2 (hA m hm)) hR (pub _)
  obtain ⟨pf, hpf, hf⟩ := openBits_ok hs (key := key) (V := fun m => VY m - B m) (val := (switchB k r c y nb).1 - b.1)
    (mac := (switchB k r c y nb).2 - b.2) (fun m hm => authSub (hVY m hm).2 (hB m hm)) hR' (pub' _)
  obtain ⟨z, hz, hn, h⟩ := makeB_ok (s := s) (key := key) (r := r) (k := k) hc (nb := nb) hnb0 (by omega) buf
    (val := fun i m => pe m * b.1 i m + pf m * a.1 i m + t.1 i m + if i = 0 then pe m * pf m else 0)
    (mac := fun i m => pe m * b.2 i m + pf m * a.2 i m + t.2 i m + pe m * pf m * key i)
    (B := fun i => X i &&& Y i)
    (fun i hi => by
      rcases le_total x.nbits y.nbits with h | h
      · rw [hnb, min_eq_left h]
        exact lt_of_le_of_lt Nat.and_le_left (hx.small i hi)
      · rw [hnb, min_eq_right h]
        exact lt_of_le_of_lt Nat.and_le_right (hy.small i hi))
    (fun i hi j hj => by
      have hm := flatLt hi hj
      set m := i * nb + j with hmd
      obtain ⟨h1, h2⟩ := hVX m hm
      obtain ⟨h3, h4⟩ := hVY m hm
      rw [hmd, (splitDiv hj).1, (splitDiv hj).2, ← hmd] at h1 h3
      rw [Nat.testBit_and]
      refine ⟨pe m * B m + pf m * A m + A m * B m + pe m * pf m, ?_, ?_⟩
      · have e1 := he m hm
        have e2 := hf m hm
        have p1 : ZMod.castHom (dvd_pow_self 2 (by omega : w ≠ 0)) (ZMod 2) (pe m) =
            ZMod.castHom (dvd_pow_self 2 (by omega : w ≠ 0)) (ZMod 2) (VX m - A m) := by
          rw [e1, map_natCast, ZMod.natCast_mod, ZMod.castHom_apply, ZMod.cast_eq_val]
        have p2 : ZMod.castHom (dvd_pow_self 2 (by omega : w ≠ 0)) (ZMod 2) (pf m) =
            ZMod.castHom (dvd_pow_self 2 (by omega : w ≠ 0)) (ZMod 2) (VY m - B m) := by
          rw [e2, map_natCast, ZMod.natCast_mod, ZMod.castHom_apply, ZMod.cast_eq_val]
        rw [parity_iff hw] at h1 h3 ⊢
        simp only [map_add, map_mul, p1, p2, map_sub, h1, h3]
        generalize ZMod.castHom (dvd_pow_self 2 (by omega : w ≠ 0)) (ZMod 2) (A m) = α
        generalize ZMod.castHom (dvd_pow_self 2 (by omega : w ≠ 0)) (ZMod 2) (B m) = γ
        cases (X i).testBit j <;> cases (Y i).testBit j <;> revert α γ <;> decide
      · exact authAdd (authAdd (authAdd (authSmul (pe m) (hB m hm)) (authSmul (pf m) (hA m hm))) (hT m hm)) (authPub 0 (pe m * pf m)))
  refine ⟨z, ?_, hn, h⟩
  unfold andBB
  simp only
  rw [← hnb, hpe]
  simp only [Option.bind_eq_bind, Option.bind_some]
  rw [hpf]
  simp only [Option.bind_some]
  exact hz

/-! ## Conversions -/

theorem eqvWeaken {m m' : ℕ} (h : m ≤ m') {a b : Rg w} (g : Eqv m' a b) : Eqv m a b := by
  obtain ⟨z, g⟩ := g
  exact ⟨2 ^ (m' - m) * z, by rw [g, ← mul_assoc, ← pow_add, show m + (m' - m) = m' by omega]⟩

theorem c63_a2bit (hs : s + 1 ≤ w) (hk : 0 < k) (hc : 1 < c) {M : ℕ} (hM : s + 1 ≤ M) {X : ℕ → Rg w} {val mac : Flat N w}
    (hx : AuthFlat M (r * c) key X (val, mac)) (buf : Fin (N + 1) → ℕ → Rg w × Rg w) :
    ∃ z, a2bit k r c s buf val mac = some z ∧ z.nbits = 1 ∧
      BitShares (r * c) k s key z.nbits z.st fun i => (X i).val % 2 := by
  have := makeB_ok (s := s) (key := key) (r := r) (k := k) hc (nb := 1) (by omega) hk buf
    (val := fun i m => low (s + 1) (val i m)) (mac := fun i m => low (s + 1) (mac i m)) (B := fun i => (X i).val % 2)
    (fun _ _ => by rw [pow_one]; exact Nat.mod_lt _ (by norm_num)) (fun i hi j hj => by
      have hj0 : j = 0 := by omega
      subst hj0
      rw [mul_one, add_zero]
      refine ⟨X i, ?_, ⟨?_, ?_⟩⟩
      · rcases Nat.mod_two_eq_zero_or_one (X i).val with h | h <;> rw [h] <;> simp
      · exact eqvTrans (eqvSum _ fun p _ => low_eqv hs _) (eqvWeaken hM (hx i hi).value)
      · exact eqvTrans (eqvSum _ fun p _ => low_eqv hs _) (eqvWeaken hM (hx i hi).tag))
  rw [mul_one] at this
  exact this

theorem addBit_ok (hs : 1 + s ≤ w) (hc : 1 < c) {x y : BShr N w} {X Y : ℕ → ℕ} (hx : BitShares (r * c) k s key x.nbits x.st X)
    (hy : BitShares (r * c) k s key y.nbits y.st Y) {env : AndEnv N w}
    (ht : Triple s (r * c * min x.nbits y.nbits) key env.a env.b env.t (env.mask _) (env.mask' _))
    (buf : Fin (N + 1) → ℕ → Rg w × Rg w) :
    ∃ z, addBit k r c s key env buf x y = some z ∧
      BitShares (r * c) k s key z.nbits z.st fun i => (X i ^^^ Y i) ^^^ (((X i &&& Y i) <<< 1) % 2 ^ k) := by
  obtain ⟨p, hp, -, hp2⟩ := c63_xor_bb (by omega) hc hx hy buf
  obtain ⟨g, hg, -, hg2⟩ := c63_and_bb hs hc hx hy ht env.pub env.pub' buf
  obtain ⟨cr, hcr, hcr2⟩ := c63_lshift hc hg2 1 buf
  obtain ⟨z, hz, -, hz2⟩ := c63_xor_bb (by omega) hc hp2 hcr2 buf
  refine ⟨z, ?_, hz2⟩
  unfold addBit
  simp only [hp, hg, hcr, hz, Option.bind_eq_bind, Option.bind_some]

theorem bitToA_ok (hs : 1 + s ≤ w) (hk : 0 < k) (hc : 1 < c) {M : ℕ} (hM : s + 1 ≤ M) {β ρ : ℕ → Bool} {val mac : Flat N w}
    (hx : ∀ m < r * c, AuthBit s key (β m) (fun p => val p m) (fun p => mac p m)) {rb : Flat N w × Flat N w}
    (hr : AuthFlat M (r * c) key (fun m => (((ρ m).toNat : ℕ) : Rg w)) rb) {env : AndEnv N w}
    (ht : Triple s (r * c) key env.a env.b env.t (env.mask _) (env.mask' _)) {mask : All N (r * c) w × All N (r * c) w}
    {R : Vec (r * c) w} (hm : AuthArr (1 + s) key R mask) (pub : Vec (r * c) w) (buf : Fin (N + 1) → ℕ → Rg w × Rg w) :
    ∃ z, bitToA k r c s key env buf rb mask pub val mac = some z ∧
      AuthFlat M (r * c) key (fun m => (((β m).toNat : ℕ) : Rg w)) z := by
  have hw : 0 < w := by omega
  have hx1 := makeB_ok (s := s) (key := key) (r := r) (k := k) hc (nb := 1) (by omega) hk buf
    (val := val) (mac := mac) (B := fun i => (β i).toNat)
    (fun i _ => by rw [pow_one]; exact lt_of_le_of_lt (Bool.toNat_le _) (by norm_num)) (fun i hi j hj => by
      have hj0 : j = 0 := by omega
      subst hj0
      rw [mul_one, add_zero]
      have : (β i).toNat.testBit 0 = β i := by cases β i <;> rfl
      rw [this]
      exact hx i hi)
  rw [mul_one] at hx1
  obtain ⟨x, hx0, hxn, hx2⟩ := hx1
  obtain ⟨br, hb0, hbn, hb2⟩ := c63_a2bit (by omega) hk hc hM hr buf
  obtain ⟨bc, hbc, hbc2⟩ := addBit_ok hs hc hx2 hb2 (env := env) (by rw [hxn, hbn, min_self, mul_one]; exact ht) buf
  obtain ⟨o, ho, ho2⟩ := openBits_bit hs (key := key) (β := fun m => (β m ^^ ρ m)) (val := (switchB k r c bc 1).1)
    (mac := (switchB k r c bc 1).2) (n := r * c) (fun m hm => by
      have := switch_ok hc hbc2 (nb := 1) (i := m) (j := 0) hm (by norm_num)
      rw [mul_one, add_zero] at this
      have e : (((β m).toNat ^^^ (((ρ m).toNat : ℕ) : Rg w).val % 2) ^^^
          ((((β m).toNat &&& (((ρ m).toNat : ℕ) : Rg w).val % 2) <<< 1) % 2 ^ k)).testBit 0 = (β m ^^ ρ m) := by
        rw [bitVal hw, Nat.testBit_xor, Nat.testBit_mod_two_pow, Nat.testBit_shiftLeft, Nat.testBit_xor]
        cases β m <;> cases ρ m <;> simp
      rw [e] at this
      exact this) hm pub
  refine ⟨_, by
    unfold bitToA
    rw [hx0]
    simp only [Option.bind_eq_bind, Option.bind_some]
    rw [hb0]
    simp only [Option.bind_some]
    rw [hbc]
    simp only [Option.bind_some]
    rw [ho]
    rfl, fun m hm => ?_⟩
  have h := authAdd (authSub (hr m hm) (authSmul (2 * o m) (hr m hm))) (authPub (m := M) (ky := key) (0 : Fin (N + 1)) (o m))
  have e : (((ρ m).toNat : ℕ) : Rg w) - 2 * o m * (((ρ m).toNat : ℕ) : Rg w) + o m = (((β m).toNat : ℕ) : Rg w) := by
    rw [ho2 m hm]
    cases β m <;> cases ρ m <;> simp
    ring
  rw [e] at h
  refine ⟨h.value, ?_⟩
  have e2 : ∀ i, o m * key i + rb.2 i m - 2 * o m * rb.2 i m = rb.2 i m - 2 * o m * rb.2 i m + o m * key i := fun i => by ring
  simp only [e2]
  exact h.tag

theorem c63_bit2a (hs : 1 + s ≤ w) (hk : 0 < k) (hc : 1 < c) {M : ℕ} (hM : s + 1 ≤ M) {x : BShr N w} {X : ℕ → ℕ}
    (hx : BitShares (r * c) k s key x.nbits x.st X) {ρ : ℕ → Bool} {rb : Flat N w × Flat N w}
    (hr : AuthFlat M (r * c) key (fun m => (((ρ m).toNat : ℕ) : Rg w)) rb) {env : AndEnv N w}
    (ht : Triple s (r * c) key env.a env.b env.t (env.mask _) (env.mask' _)) {mask : All N (r * c) w × All N (r * c) w}
    {R : Vec (r * c) w} (hm : AuthArr (1 + s) key R mask) (pub : Vec (r * c) w) (buf : Fin (N + 1) → ℕ → Rg w × Rg w) :
    ∃ z, bit2a k r c s key env buf rb mask pub x = some z ∧ AuthFlat M (r * c) key (fun i => ((X i % 2 : ℕ) : Rg w)) z := by
  have h := bitToA_ok (β := fun m => (X m).testBit 0) hs hk hc hM (fun m hm => by
    have := switch_ok hc hx (nb := 1) (i := m) (j := 0) hm (by norm_num)
    rw [mul_one, add_zero] at this
    exact this) hr ht hm pub buf
  have e : (fun m => ((((X m).testBit 0).toNat : ℕ) : Rg w)) = fun m => ((X m % 2 : ℕ) : Rg w) := by
    funext m
    rw [Nat.testBit_zero]
    rcases Nat.mod_two_eq_zero_or_one (X m) with h | h <;> rw [h] <;> simp
  rw [e] at h
  exact h

theorem bitSum (B : ℕ) (l : ℕ) : ∑ j ∈ Finset.range l, (B.testBit j).toNat * 2 ^ j = B % 2 ^ l := by
  induction l with
  | zero => simp [Nat.mod_one]
  | succ l ih => rw [Finset.sum_range_succ, ih, Nat.mod_pow_succ, shiftBit, mul_comm]

theorem c63_b2a (hs : 1 + s ≤ w) (hc : 1 < c) {M : ℕ} (hM : s + 1 ≤ M) {x : BShr N w} {X : ℕ → ℕ}
    (hx : BitShares (r * c) k s key x.nbits x.st X) {ρ : ℕ → Bool} {rb : Flat N w × Flat N w}
    (hr : AuthFlat M (r * (c * x.nbits)) key (fun m => (((ρ m).toNat : ℕ) : Rg w)) rb) {env : AndEnv N w}
    (ht : Triple s (r * (c * x.nbits)) key env.a env.b env.t (env.mask _) (env.mask' _))
    {mask : All N (r * (c * x.nbits)) w × All N (r * (c * x.nbits)) w} {R : Vec (r * (c * x.nbits)) w}
    (hm : AuthArr (1 + s) key R mask) (pub : Vec (r * (c * x.nbits)) w) (buf : Fin (N + 1) → ℕ → Rg w × Rg w) :
    ∃ z, b2a k r c s key env buf rb x mask pub = some z ∧ AuthFlat M (r * c) key (fun i => ((X i : ℕ) : Rg w)) z := by
  have h0 := hx.pos
  have hk := hx.le
  obtain ⟨e, he, h⟩ := bitToA_ok (β := fun m => (X (m / x.nbits)).testBit (m % x.nbits)) (val := getVal k r c x)
    (mac := getMacB k r c x) hs (show 0 < k by omega) (show 1 < c * x.nbits from lt_of_lt_of_le hc (Nat.le_mul_of_pos_right _ h0)) hM
    (fun m hm => by
      have := get_ok hc hx (i := m / x.nbits) (j := m % x.nbits) (Nat.div_lt_of_lt_mul (by rw [mul_comm, mul_assoc]; exact hm))
        (Nat.mod_lt _ h0)
      rw [mul_comm (m / x.nbits), Nat.div_add_mod] at this
      exact this) hr ht hm pub buf
  refine ⟨_, by unfold b2a; rw [he]; rfl, fun i hi => ?_⟩
  have hsum := authSum (ky := key) (m := M) (Finset.range x.nbits)
    (x := fun j => 2 ^ j * ((((X i).testBit j).toNat : ℕ) : Rg w))
    (v := fun p j => 2 ^ j * e.1 p (i * x.nbits + j)) (mc := fun p j => 2 ^ j * e.2 p (i * x.nbits + j)) (fun j hj => by
      have hj := Finset.mem_range.1 hj
      have := h (i * x.nbits + j) (by rw [← mul_assoc]; exact flatLt hi hj)
      simp only [(splitDiv hj).1, (splitDiv hj).2] at this
      exact authSmul (2 ^ j) this)
  have ev : ∑ j ∈ Finset.range x.nbits, 2 ^ j * ((((X i).testBit j).toNat : ℕ) : Rg w) = ((X i : ℕ) : Rg w) := by
    have := congrArg (fun v : ℕ => (v : Rg w)) (bitSum (X i) x.nbits)
    simp only [Nat.mod_eq_of_lt (hx.small i hi)] at this
    rw [← this]
    push_cast
    exact Finset.sum_congr rfl fun j _ => mul_comm _ _
  rw [ev] at hsum
  simpa only [mul_comm] using hsum

/-! ## Small shapes -/

/-- The pairs read from a share just made: right when the last dimension is not one, or when there is more than one element
and not all places are used, or when there is one bit. -/
theorem c63_layout {nb : ℕ} (h0 : 0 < nb) (hk : nb ≤ k) (hr : 0 < r) (hc : 0 < c)
    (h : 1 < c ∨ nb < k ∧ (1 < r ∨ nb = 1)) (buf : Fin (N + 1) → ℕ → Rg w × Rg w) (val mac : Flat N w) :
    ∃ x, makeB k r (c * nb) nb buf val mac = some x ∧ ∀ p, ∀ m < r * c * nb, getPair k r c x p m = (val p m, mac p m) := by
  by_cases hf : 1 < r ∨ 1 < c
  · obtain ⟨x, hx, hn, hp⟩ := makeB_places (r := r) h0 hc hk buf val mac (fast_one hf)
    refine ⟨x, hx, fun p m hm => ?_⟩
    have hi : m / nb < r * c := Nat.div_lt_of_lt_mul (by rw [mul_comm]; exact hm)
    have hj := Nat.mod_lt m h0
    have e := Nat.div_add_mod m nb
    rw [mul_comm] at e
    have key := hp p (m / nb) hi (m % nb) (by omega)
    rw [if_pos hj, e] at key
    rw [← key]
    by_cases hc1 : 1 < c
    · have := getPair_eq (r := r) hc1 (x := x) (by omega : x.nbits ≤ k) hi (by omega : m % nb < x.nbits) p
      rw [hn, e] at this
      exact this
    · unfold getPair
      rw [if_neg (by omega), fast_one hf, one_mul, hn]
  · have hr1 : r = 1 := by omega
    have hc1 : c = 1 := by omega
    have hnb : nb = 1 := by omega
    subst hr1 hc1 hnb
    unfold makeB
    rw [guard_bind (show (1 : ℕ) ≠ 0 by omega), guard_bind (by decide), guard_bind hk]
    refine ⟨_, rfl, fun p m hm => ?_⟩
    have hm0 : m = 0 := by omega
    subst hm0
    unfold getPair
    rw [if_neg (by simp only; omega)]
    simp only [fastStride, and_self, if_true, zero_mul]
    exact writes_in (fun _ => 0) (fun m => (val p m, mac p m)) 1 _ (m := 0) (by norm_num) (by omega)

/-- FINDING: in an array of one element all bits are read as the last one. -/
theorem c63_one_element {nb : ℕ} (h0 : 0 < nb) (hk : nb ≤ k) (buf : Fin (N + 1) → ℕ → Rg w × Rg w) (val mac : Flat N w) :
    ∃ x, makeB k 1 nb nb buf val mac = some x ∧ x.nbits = nb ∧
      ∀ p, ∀ m < nb, getPair k 1 1 x p m = (val p (nb - 1), mac p (nb - 1)) := by
  unfold makeB
  rw [guard_bind (show nb ≠ 0 by omega), guard_bind (show nb % nb = 0 ∧ nb / nb ≠ 0 by
    rw [Nat.mod_self, Nat.div_self h0]; decide), guard_bind hk]
  refine ⟨_, rfl, rfl, fun p m hm => ?_⟩
  have hw : ∀ buf : ℕ → Rg w × Rg w, writes (fun m => 0 * (m / nb * k + m % nb)) (fun m => (val p m, mac p m)) nb buf 0 =
      (val p (nb - 1), mac p (nb - 1)) := fun buf => by
    have := writes_in (fun m => 0 * (m / nb * k + m % nb)) (fun m => (val p m, mac p m)) nb buf (m := nb - 1) (by omega)
      (fun m' h1 h2 => by omega)
    simpa only [zero_mul] using this
  unfold getPair
  simp only [Nat.div_self h0, fastStride, rowStride, colStride, and_self, if_true, zero_mul, mul_zero, add_zero, one_mul] at hw ⊢
  split_ifs <;> exact hw _

/-- FINDING: if the last dimension is one and all places are used then all bits are read as the first one. -/
theorem c63_last_dim_one (hk : 0 < k) (hr : 1 < r) (buf : Fin (N + 1) → ℕ → Rg w × Rg w) (val mac : Flat N w) :
    ∃ x, makeB k r k k buf val mac = some x ∧
      ∀ p, ∀ i < r, ∀ j < k, getPair k r 1 x p (i * k + j) = (val p (i * k), mac p (i * k)) := by
  obtain ⟨x, hx, hn, hp⟩ := makeB_places (r := r) (c := 1) hk one_pos le_rfl buf val mac (fast_one (Or.inl hr))
  rw [one_mul] at hx
  refine ⟨x, hx, fun p i hi j hj => ?_⟩
  unfold getPair
  rw [if_pos hn]
  have := hp p i (by omega) 0 hk
  simp only [if_pos hk, add_zero] at this
  simp only [rowStride, colStride, if_neg (show ¬ r = 1 by omega), one_mul, if_true, mul_zero, add_zero, (splitDiv hj).1]
  exact this

/-- FINDING: a public number made a boolean share of one element and opened again is all ones. -/
theorem c63_one_element_p2b (hs : 1 + s ≤ w) {p : ℕ → ℕ} (h0 : p 0 ≠ 0) (hp : p 0 < 2 ^ k) (pf : ℕ) (rnd rndMac : Flat N w)
    (buf : Fin (N + 1) → ℕ → Rg w × Rg w) :
    ∃ x, p2b k 1 1 pf key rnd rndMac buf p = some x ∧ x.nbits = Nat.size (p 0) ∧
      ∀ (mask : All N (1 * 1 * x.nbits) w × All N (1 * 1 * x.nbits) w) (R : Vec (1 * 1 * x.nbits) w),
        AuthArr (1 + s) key R mask → ∀ pub, ∃ t, b2p k 1 1 s key x mask pub = some t ∧ t 0 = 2 ^ Nat.size (p 0) - 1 := by
  have hw : 0 < w := by omega
  have hmax : maxBitWidth pf (1 * 1) p = Nat.size (p 0) := by
    unfold maxBitWidth
    rw [if_neg (by norm_num)]
    simp
  have hnb0 : 0 < Nat.size (p 0) := Nat.size_pos.2 (by omega)
  have hnbk : Nat.size (p 0) ≤ k := Nat.size_le.2 hp
  set nb := Nat.size (p 0) with hnb
  have hv : (p2Value (w := w) k pf (1 * 1) p 0).1 = nb := by
    unfold p2Value
    simp only [if_true, hmax]
    omega
  have hb : (p2Value (w := w) k pf (1 * 1) p 0).2 (nb - 1) = ((true.toNat : ℕ) : Rg w) := by
    unfold p2Value
    simp only [if_true, hmax]
    rw [min_eq_right hnbk, Nat.div_eq_of_lt (show nb - 1 < nb by omega), Nat.mod_eq_of_lt (show nb - 1 < nb by omega), shiftBit]
    have : (p 0).testBit (nb - 1) = true := by
      have h1 : 2 ^ (nb - 1) ≤ p 0 := Nat.lt_size.1 (by omega)
      have h2 : p 0 < 2 ^ nb := Nat.lt_size_self _
      have h3 : p 0 / 2 ^ (nb - 1) = 1 := by
        have e : 2 ^ nb = 2 ^ (nb - 1) * 2 := by rw [← pow_succ]; congr 1; omega
        rw [e] at h2
        have h4 := Nat.div_lt_of_lt_mul h2
        have h5 := Nat.div_pos h1 (by positivity)
        omega
      have h4 := shiftBit (p 0) (nb - 1)
      rw [h3] at h4
      cases hh : (p 0).testBit (nb - 1)
      · rw [hh] at h4
        simp at h4
      · rfl
    rw [this]
  obtain ⟨x, hx, hn, hxp⟩ := c63_one_element hnb0 hnbk buf
    (fun i m => (if i = 0 then (p2Value (w := w) k pf (1 * 1) p 0).2 m else 0) + (rnd i m - rnd (i + 1) m))
    (fun i m => (p2Value (w := w) k pf (1 * 1) p 0).2 m * key i + (rndMac i m - rndMac (i + 1) m))
  refine ⟨x, ?_, hn, fun mask R hm pub => ?_⟩
  · unfold p2b
    simp only
    rw [guard_bind (by norm_num), hv]
    simpa using hx
  · obtain ⟨t, ht, h⟩ := b2p_bits (k := k) (r := 1) (c := 1) hs (x := x) (key := key) (β := fun _ _ => true) (fun i hi j hj => by
      have hi0 : i = 0 := by omega
      subst hi0
      simp only [zero_mul, zero_add, getVal, getMacB, hxp _ j (by omega), hb]
      exact bitPrss (bitPub (s := s) (key := key) hw true) (fun q => rnd q (nb - 1)) (fun q => rndMac q (nb - 1)))
      (by omega) hm pub
    refine ⟨t, ht, Nat.eq_of_testBit_eq fun j => ?_⟩
    rw [h 0 (by norm_num) j, Nat.testBit_two_pow_sub_one, Bool.and_true, hn]

/-! ## Openings that reveal too much -/

/-- FINDING: with the masks of the trusted first party, which have one bit when bits are opened, the opening of the XOR of two
bits shows their sum. -/
theorem c63_bit_leak {n : ℕ} (hs : 2 ≤ s) (hw : s + 1 ≤ w) (gk : Rg w) (sh shMac val mac : All N n w) (rnd : Vec n w) (j : Fin n)
    (x y : Bool) (h : Eqv (s + 1) (∑ i, val i j) ((x.toNat + y.toNat : ℕ) : Rg w)) :
    let o := (batchOpen 1 val mac (dealCoin 1 gk sh shMac rnd) 0).1 j
    o.val % 2 ^ (s + 1) = x.toNat + y.toNat + 2 * ((rnd j).val % 2) ∧
      (o.val % 2 ^ (s + 1) = 0 → x = false ∧ y = false) ∧ (o.val % 2 ^ (s + 1) = 4 → x = true ∧ y = true) := by
  intro o
  have hsum : ∑ i, (dealCoin 1 gk sh shMac rnd).1 i j = low 1 (rnd j) := by
    unfold dealCoin deal adjust
    simp only [Pi.add_apply, onlyAt_apply, Finset.sum_add_distrib, Finset.sum_ite_eq', Finset.mem_univ, if_true, Pi.sub_apply,
      Finset.sum_apply]
    ring
  have ho : o = ∑ i, val i j + 2 ^ 1 * low 1 (rnd j) := by
    simp only [o, batchOpen, opened, maskShare, Pi.add_apply, Pi.zero_apply, add_zero]
    rw [Finset.sum_add_distrib, ← Finset.mul_sum, hsum]
  have hl := Nat.mod_lt (rnd j).val (show 0 < 2 by norm_num)
  have hx := Bool.toNat_le x
  have hy := Bool.toNat_le y
  have h8 : 8 ≤ 2 ^ (s + 1) := le_trans (by norm_num) (Nat.pow_le_pow_right (show 0 < 2 by norm_num) (show 3 ≤ s + 1 by omega))
  have he : Eqv (s + 1) o ((x.toNat + y.toNat + 2 * ((rnd j).val % 2) : ℕ) : Rg w) := by
    rw [ho]
    have := eqvAdd h (eqvRefl (m := s + 1) (2 ^ 1 * low 1 (rnd j)))
    have e : ((x.toNat + y.toNat : ℕ) : Rg w) + 2 ^ 1 * low 1 (rnd j) =
        ((x.toNat + y.toNat + 2 * ((rnd j).val % 2) : ℕ) : Rg w) := by
      unfold low
      push_cast
      ring
    rw [e] at this
    exact this
  have hww : 2 ^ (s + 1) ≤ 2 ^ w := Nat.pow_le_pow_right (by norm_num) hw
  have hv : o.val % 2 ^ (s + 1) = x.toNat + y.toNat + 2 * ((rnd j).val % 2) := by
    rw [eqv_iff hw, ZMod.val_natCast, Nat.mod_eq_of_lt (by omega)] at he
    have h3 : ((o.val : ℤ)) % (2 ^ (s + 1) : ℤ) = ((x.toNat + y.toNat + 2 * ((rnd j).val % 2) : ℕ) : ℤ) % (2 ^ (s + 1) : ℤ) :=
      Int.emod_eq_emod_iff_emod_sub_eq_zero.2 (Int.emod_eq_zero_of_dvd he)
    have h4 : o.val % 2 ^ (s + 1) = (x.toNat + y.toNat + 2 * ((rnd j).val % 2)) % 2 ^ (s + 1) := by
      exact_mod_cast h3
    rw [h4, Nat.mod_eq_of_lt (by omega)]
  refine ⟨hv, fun h => ?_, fun h => ?_⟩
  · rw [hv] at h
    cases x <;> cases y <;> simp at h ⊢
  · rw [hv] at h
    cases x <;> cases y <;> simp at h ⊢ <;> omega

/-- FINDING: the first statements of `MSB` open its argument to all parties. -/
theorem c63_msb_opens {n : ℕ} (h0 : k + s ≠ 0) (hw : k + s ≤ w) {X R : Vec n w} {val mac : All N n w}
    (hx : AuthArr (k + s) key X (val, mac)) {mask : All N n w × All N n w} (hm : AuthArr (k + s) key R mask) (pub : Vec n w) :
    ∃ t, msbOpens k s key mask pub val mac = some t ∧ ∀ j, red k (t j) = red k (X j) := by
  refine ⟨_, by
    unfold msbOpens
    simp only
    rw [guard_bind (openCheck_ok h0 hw hx hm pub)], fun j => ?_⟩
  have h1 := red_eq (by omega) (batchOpen_ok hx hm j).1
  have h2 := red_eq (k := k) (by omega) (eqvRefl ((batchOpen k val mac mask 0).1 j))
  rw [← h1, ← h2]

end

/-! ## Examples -/

/-- Two parties with the key 3 = 1 + 2. -/
def bKey : Fin 2 → Rg 8 := ![1, 2]

def bRnd : Flat 1 8 := fun i m => ((7 * m + 5 * i + 3 : ℕ) : Rg 8)

def bBuf : Fin 2 → ℕ → Rg 8 × Rg 8 := fun _ m => (m, 9)

/-- Authenticated shares of `v`. -/
def bPub (v : ℕ → ℕ) : Flat 1 8 × Flat 1 8 := (fun i m => if i = 0 then (v m : Rg 8) else 0, fun i m => (v m : Rg 8) * bKey i)

/-- `b2p(p2b(p))` for an array of shape `(1, 2)`: 4, 5. -/
example : ((p2b 4 1 2 8 bKey bRnd bRnd bBuf fun i => i + 4).bind fun x =>
    (b2p 4 1 2 3 bKey x (fun i j => bRnd i j - bRnd i j, fun _ _ => 0) (fun _ => 3)).map fun t => (t 0, t 1)) = some (4, 5) := by
  decide +kernel

/-- The same for an array of one element: 7 instead of 4. -/
example : ((p2b 4 1 1 8 bKey bRnd bRnd bBuf fun i => i + 4).bind fun x =>
    (b2p 4 1 1 3 bKey x (fun _ _ => 0, fun _ _ => 0) (fun _ => 3)).map fun t => t 0) = some 7 := by
  decide +kernel

/-- Shares as in the hypotheses: 4 and 5 are shared with three bits each. -/
example : ∃ x, p2b 4 1 2 8 bKey bRnd bRnd bBuf (fun i => i + 4) = some x ∧
    BitShares (1 * 2) 4 3 bKey x.nbits x.st fun i => (i + 4) % 2 ^ 4 :=
  c63_p2b (by norm_num) (by norm_num) (by norm_num) ⟨0, by norm_num, by norm_num⟩ 8 _ _ _

/-- A triple as in the hypotheses. -/
example : Triple 3 6 bKey (bPub fun m => m + 1) (bPub fun m => 2 * m + 1) (bPub fun m => (m + 1) * (2 * m + 1))
    (fun i _ => if i = 0 then 1 else 0, fun i _ => 1 * bKey i) (fun i _ => if i = 0 then 1 else 0, fun i _ => 1 * bKey i) :=
  ⟨fun m => ((m + 1 : ℕ) : Rg 8), fun m => ((2 * m + 1 : ℕ) : Rg 8), fun _ _ => authPub 0 _, fun _ _ => authPub 0 _,
    fun m _ => by
      have := authPub (m := 3 + 1) (ky := bKey) 0 (((m + 1) * (2 * m + 1) : ℕ) : Rg 8)
      simp only [← Nat.cast_mul]
      exact this,
    ⟨fun _ => 1, fun _ => authPub 0 _⟩, ⟨fun _ => 1, fun _ => authPub 0 _⟩⟩

/-- `and_bb` of 6 and 5 with such a triple: 4; `b2p` of `xor_bb`, `rshift_b`, `not_b`. -/
example : ((p2b 4 1 2 8 bKey bRnd bRnd bBuf fun i => i + 6).bind fun x => (p2b 4 1 2 8 bKey bRnd bRnd bBuf fun i => 5 + i).bind fun y =>
    (andBB 4 1 2 3 bKey (bPub fun m => m + 1) (bPub fun m => 2 * m + 1) (bPub fun m => (m + 1) * (2 * m + 1))
      (fun _ => (fun _ _ => 0, fun _ _ => 0)) (fun _ => (fun _ _ => 0, fun _ _ => 0)) (fun _ _ => 3) (fun _ _ => 1) bBuf x y).bind fun z =>
    (b2p 4 1 2 3 bKey z (fun _ _ => 0, fun _ _ => 0) (fun _ => 3)).map fun t => (t 0, t 1)) = some (4, 6) := by
  decide +kernel

/-- An opened XOR: the value is 4 when both bits are set and the mask is 1. -/
example : ((batchOpen 1 (fun i (_ : Fin 1) => if i = 0 then (2 : Rg 8) else 0) (fun i _ => 2 * bKey i)
    (dealCoin 1 3 (fun _ _ => 5) (fun _ _ => 6) fun _ => 1) 0).1 0).val % 2 ^ 4 = 4 := by
  decide +kernel

end Spu.Props

import Verif.Model.CheetahCmp
import Verif.Lemmas.CheetahOt
import Verif.Props.Circuits
import Mathlib.Tactic.Linarith

set_option autoImplicit false

/-!
# Lemmas on the comparison tree
-/

namespace Spu.Spec

/-- the word of a truth value -/
def word {w : ℕ} (b : Bool) : BitVec w := if b then 1 else 0

/-- the comparison asked for -/
def cmpB (gt : Bool) (a b : ℕ) : Bool := if gt then decide (a > b) else decide (a < b)

/-- (comparison, equality) of two-digit numbers from those of the lower and the upper digit -/
def comb (lo hi : Bool × Bool) : Bool × Bool := (hi.1 ^^ (hi.2 && lo.1), hi.2 && lo.2)

/-- digits `a … a + n - 1` combined, digit `a` the lowest -/
def cmb (f : ℕ → Bool × Bool) (a : ℕ) : ℕ → Bool × Bool
  | 0 => (false, true)
  | n + 1 => comb (cmb f a n) (f (a + n))

theorem comb_id (x : Bool × Bool) : comb (false, true) x = x := by
  obtain ⟨a, b⟩ := x
  simp [comb]

theorem comb_assoc (x y z : Bool × Bool) : comb (comb x y) z = comb x (comb y z) := by
  obtain ⟨a, b⟩ := x
  obtain ⟨c, d⟩ := y
  obtain ⟨e, f⟩ := z
  revert a b c d e f
  decide

theorem cmb_one (f : ℕ → Bool × Bool) (a : ℕ) : cmb f a 1 = f a := by
  simp [cmb, comb_id]

theorem cmb_add (f : ℕ → Bool × Bool) (a m n : ℕ) : cmb f a (m + n) = comb (cmb f a m) (cmb f (a + m) n) := by
  induction n with
  | zero =>
    obtain ⟨x, hx⟩ : ∃ x, x = cmb f a m := ⟨_, rfl⟩
    rw [Nat.add_zero, ← hx]
    obtain ⟨p, q⟩ := x
    simp [cmb, comb]
  | succ n ih => rw [← Nat.add_assoc, cmb, ih, comb_assoc, cmb, Nat.add_assoc]

theorem cmb_congr {f g : ℕ → Bool × Bool} {a b n : ℕ} (h : ∀ j, j < n → f (a + j) = g (b + j)) : cmb f a n = cmb g b n := by
  induction n with
  | zero => rfl
  | succ n ih => rw [cmb, cmb, ih fun j hj => h j (by omega), h n (by omega)]

/-- one level of the tree -/
theorem cmb_pair (f : ℕ → Bool × Bool) (n : ℕ) : cmb (fun c => comb (f (2 * c)) (f (2 * c + 1))) 0 n = cmb f 0 (2 * n) := by
  induction n with
  | zero => rfl
  | succ n ih =>
    rw [cmb, ih, show 2 * (n + 1) = 2 * n + 2 by ring, cmb_add f 0 (2 * n) 2]
    simp [cmb, comb_id]

/-- the tree continued from a combined prefix -/
theorem cmb_prefix {f g : ℕ → Bool × Bool} {u n : ℕ} (h0 : g 0 = cmb f 0 u) (h : ∀ t, t < n → g (t + 1) = f (u + t)) :
    cmb g 0 (n + 1) = cmb f 0 (u + n) := by
  rw [Nat.add_comm n 1, cmb_add, cmb_add, cmb_one, h0]
  congr 1
  refine cmb_congr fun j hj => ?_
  rw [Nat.zero_add, Nat.zero_add, ← h j hj, Nat.add_comm]

theorem comb_digit (gt : Bool) {a b P d e : ℕ} (ha : a < P) (hb : b < P) :
    comb (cmpB gt a b, decide (a = b)) (cmpB gt d e, decide (d = e)) = (cmpB gt (a + P * d) (b + P * e), decide (a + P * d = b + P * e)) := by
  rcases lt_trichotomy d e with h | h | h
  · have : P * (d + 1) ≤ P * e := Nat.mul_le_mul_left P h
    rw [Nat.mul_add, Nat.mul_one] at this
    have h1 : ¬ e < d := by omega
    have h2 : ¬ d = e := by omega
    have h3 : ¬ b + P * e < a + P * d := by omega
    have h4 : a + P * d < b + P * e := by omega
    have h5 : ¬ a + P * d = b + P * e := by omega
    cases gt <;> simp [comb, cmpB, h, h2, h4, h5] <;> omega
  · subst h
    cases gt <;> simp [comb, cmpB]
  · have : P * (e + 1) ≤ P * d := Nat.mul_le_mul_left P h
    rw [Nat.mul_add, Nat.mul_one] at this
    have h2 : ¬ d = e := by omega
    have h3 : b + P * e < a + P * d := by omega
    have h4 : ¬ a + P * d < b + P * e := by omega
    have h5 : ¬ a + P * d = b + P * e := by omega
    cases gt <;> simp [comb, cmpB, h, h2, h3, h5] <;> omega

/-- digit by digit, from the lowest: comparison and equality of the numbers -/
theorem cmb_digits (gt : Bool) {B : ℕ} (hB : 0 < B) (X Y n : ℕ) :
    cmb (fun j => (cmpB gt (X / B ^ j % B) (Y / B ^ j % B), decide (X / B ^ j % B = Y / B ^ j % B))) 0 n =
      (cmpB gt (X % B ^ n) (Y % B ^ n), decide (X % B ^ n = Y % B ^ n)) := by
  induction n with
  | zero => cases gt <;> simp [cmb, cmpB, Nat.mod_one]
  | succ n ih =>
    have hP : 0 < B ^ n := Nat.pow_pos hB
    rw [cmb, ih, Nat.mod_pow_succ, Nat.mod_pow_succ, Nat.zero_add, comb_digit gt (Nat.mod_lt _ hP) (Nat.mod_lt _ hP)]

section
variable {w : ℕ}

theorem word_bit (hw : 0 < w) (b : Bool) (k : ℕ) : (word (w := w) b).getLsbD k = (decide (k = 0) && b) := by
  unfold word
  cases b
  · simp
  · rw [if_pos rfl, show (1 : BitVec w) = 1#w from rfl, BitVec.getLsbD_one]
    simp [hw]

theorem word_inj (hw : 0 < w) {a b : Bool} (h : word (w := w) a = word b) : a = b := by
  have := congrArg (fun v : BitVec w => v.getLsbD 0) h
  simpa [word_bit hw] using this

theorem word_and (hw : 0 < w) (a b : Bool) : lowBits 1 (word (w := w) a &&& word b) = word (a && b) := by
  apply BitVec.eq_of_getLsbD_eq
  intro k _
  rw [lowBits_bit, BitVec.getLsbD_and, word_bit hw, word_bit hw, word_bit hw]
  rcases k with _ | k <;> simp

theorem word_xor (hw : 0 < w) (a b : Bool) : word (w := w) a ^^^ word b = word (a ^^ b) := by
  apply BitVec.eq_of_getLsbD_eq
  intro k _
  rw [BitVec.getLsbD_xor, word_bit hw, word_bit hw, word_bit hw]
  rcases k with _ | k <;> simp

end

theorem row_div {r c b : ℕ} (h : c < b) : (r * b + c) / b = r := by
  rw [Nat.add_comm, Nat.add_mul_div_right _ _ (by omega), Nat.div_eq_of_lt h, Nat.zero_add]

theorem row_mod {r c b : ℕ} (h : c < b) : (r * b + c) % b = c := by
  rw [Nat.add_comm, Nat.add_mul_mod_self_right, Nat.mod_eq_of_lt h]

end Spu.Spec

import Verif.Spec.Gates
import Mathlib.Tactic.Ring
import Mathlib.Tactic.Linarith

set_option autoImplicit false

/-! # Program logic for kernels, and carries -/

namespace Spu.Lemmas
open Spu.Model.Circ Spu.Model.Bits Spu.Spec

section
variable {σ α β : Type} {Inv : σ → Prop}

theorem Ok.pure {a : α} {P : α → Prop} (h : P a) : Ok Inv (pure a : M σ α) P :=
  fun s hs => ⟨a, s, rfl, hs, h⟩

theorem Ok.bind {m : M σ α} {f : α → M σ β} {P : α → Prop} {Q : β → Prop}
    (h : Ok Inv m P) (hf : ∀ a, P a → Ok Inv (f a) Q) : Ok Inv (m >>= f) Q := by
  intro s hs
  obtain ⟨a, s', e, hs', ha⟩ := h s hs
  obtain ⟨b, s'', e', hs'', hb⟩ := hf a ha s' hs'
  exact ⟨b, s'', by simp [StateT.bind, Bind.bind, e, e'], hs'', hb⟩

theorem Ok.imp {m : M σ α} {P Q : α → Prop} (h : Ok Inv m P) (hPQ : ∀ a, P a → Q a) : Ok Inv m Q := by
  intro s hs
  obtain ⟨a, s', e, hs', ha⟩ := h s hs
  exact ⟨a, s', e, hs', hPQ a ha⟩

theorem Ok.enforce {b : Bool} {f : Unit → M σ β} {Q : β → Prop} (hb : b = true) (h : Ok Inv (f ()) Q) :
    Ok Inv (enforce b >>= f) Q := by
  subst hb
  exact Ok.bind (P := fun _ => True) (Ok.pure trivial) (fun _ _ => h)

theorem Ok.foldl_range {f : β → ℕ → M σ β} (I : ℕ → β → Prop) {n : ℕ} {b : β} (h0 : I 0 b)
    (step : ∀ k, k < n → ∀ b, I k b → Ok Inv (f b k) (I (k + 1))) :
    Ok Inv ((List.range n).foldlM f b) (I n) := by
  induction n with
  | zero => exact Ok.pure h0
  | succ n ih =>
    rw [List.range_succ, List.foldlM_append]
    refine Ok.bind (ih fun k hk => step k (by omega)) (fun a ha => ?_)
    simp only [List.foldlM_cons, List.foldlM_nil, bind_pure]
    exact step n (by omega) a ha

end

section
variable {w : ℕ}

/-- carry into position `i` of `x + y` -/
abbrev cy (x y : BitVec w) (i : ℕ) : Bool := BitVec.carry i x y false

theorem cy_zero (x y : BitVec w) : cy x y 0 = false := BitVec.carry_zero

theorem cy_succ (x y : BitVec w) (i : ℕ) :
    cy x y (i + 1) = ((x.getLsbD i && y.getLsbD i) ^^ ((x.getLsbD i ^^ y.getLsbD i) && cy x y i)) := by
  unfold cy
  rw [BitVec.carry_succ]
  cases x.getLsbD i <;> cases y.getLsbD i <;> cases BitVec.carry i x y false <;> rfl

theorem add_bit (x y : BitVec w) {i : ℕ} (hi : i < w) :
    (x + y).getLsbD i = (x.getLsbD i ^^ y.getLsbD i ^^ cy x y i) := by
  rw [BitVec.getLsbD_add hi, Bool.xor_assoc]

theorem bit_of_lt {x : BitVec w} {n i : ℕ} (h : x.toNat < 2 ^ n) (hi : n ≤ i) : x.getLsbD i = false := by
  unfold BitVec.getLsbD
  exact Nat.testBit_lt_two_pow (lt_of_lt_of_le h (Nat.pow_le_pow_right (by norm_num) hi))

theorem lt_of_bits {x : BitVec w} {n : ℕ} (h : ∀ i, n ≤ i → x.getLsbD i = false) : x.toNat < 2 ^ n :=
  Nat.lt_pow_two_of_testBit _ (fun i hi => h i hi)

/-- state of Kogge-Stone after `l` rounds: bit `i` of `(P, G)` summarises positions `(i - 2^l, i]` -/
def Kogge (x y : BitVec w) (l : ℕ) (P G : BitVec w) : Prop :=
  ∀ i, i < w → cy x y (i + 1) = (G.getLsbD i ^^ (P.getLsbD i && cy x y (i + 1 - 2 ^ l)))

theorem kogge_init (x y : BitVec w) : Kogge x y 0 (x ^^^ y) (x &&& y) := by
  intro i _
  rw [cy_succ]
  simp

theorem kogge_step {x y P G : BitVec w} {l : ℕ} (h : Kogge x y l P G) :
    Kogge x y (l + 1) (P &&& P <<< 2 ^ l) (G ^^^ (P &&& G <<< 2 ^ l)) := by
  intro i hi
  rw [h i hi]
  simp only [BitVec.getLsbD_xor, BitVec.getLsbD_and, BitVec.getLsbD_shiftLeft, hi, decide_true, Bool.true_and]
  by_cases hl : i < 2 ^ l
  · simp [hl, Nat.sub_eq_zero_of_le (show i + 1 ≤ 2 ^ l by omega)]
  · have e : i + 1 - 2 ^ l = (i - 2 ^ l) + 1 := by omega
    have h2 := h (i - 2 ^ l) (lt_of_le_of_lt (Nat.sub_le _ _) hi)
    have e2 : i - 2 ^ l + 1 - 2 ^ l = i + 1 - 2 ^ (l + 1) := by rw [pow_succ]; omega
    rw [e2] at h2
    rw [e, h2]
    simp only [hl, decide_false, Bool.not_false, Bool.true_and]
    cases P.getLsbD i <;> cases G.getLsbD i <;> simp

theorem kogge_final {x y P G : BitVec w} {l : ℕ} (h : Kogge x y l P G) {i : ℕ} (hi : i < w)
    (hl : i < 2 ^ l) : G.getLsbD i = cy x y (i + 1) := by
  rw [h i hi, Nat.sub_eq_zero_of_le (show i + 1 ≤ 2 ^ l by omega), cy_zero]
  simp

end

theorem le_pow_log2Ceil (n : ℕ) : n ≤ 2 ^ log2Ceil n := by
  unfold log2Ceil
  split
  · simpa using ‹n ≤ 1›
  · have := Nat.lt_log2_self (n := n - 1)
    omega

theorem pow_lt_of_lt_log2Ceil {n k : ℕ} (h : k < log2Ceil n) : 2 ^ k < n := by
  unfold log2Ceil at h
  split at h
  · omega
  · have h1 : 2 ^ Nat.log2 (n - 1) ≤ n - 1 := Nat.log2_self_le (by omega)
    have h2 : 2 ^ k ≤ 2 ^ Nat.log2 (n - 1) := Nat.pow_le_pow_right (by norm_num) (by omega)
    omega

end Spu.Lemmas

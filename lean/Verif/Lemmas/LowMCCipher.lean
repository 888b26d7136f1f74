import Verif.Lemmas.LowMC
import Verif.Lemmas.Xor

set_option autoImplicit false

/-!
# Lemmas for C82: the S-box layer, rounds, evaluation on shares
-/

namespace Spu.Lemmas.LowMC
open Spu.Model Spu.Model.LowMC Spu.Spec.LowMC

/-! ### S-boxes -/

theorem testBit_small {v k : ℕ} (hv : v < 8) (hk : 3 ≤ k) : v.testBit k = false :=
  Nat.testBit_lt_two_pow (lt_of_lt_of_le hv (by calc 8 = 2 ^ 3 := rfl
                                                _ ≤ 2 ^ k := Nat.pow_le_pow_right (by omega) hk))

theorem getD_lt8 {sbox : List ℕ} (h8 : ∀ v ∈ sbox, v < 8) (i : ℕ) : sbox.getD i 0 < 8 := by
  rw [List.getD_eq_getElem?_getD]
  cases e : sbox[i]? with
  | none => simp
  | some v => exact h8 v (List.mem_of_getElem? e)

theorem subst_loop {w : ℕ} {sbox : List ℕ} (h8 : ∀ v ∈ sbox, v < 8) (boxes : ℕ) (x : BitVec w) : ∀ k ≤ boxes, ∀ i < w,
    ((List.range k).foldl (fun (tmp : BitVec w) i =>
      let ind := (x >>> (3 * (boxes - (i + 1)))) &&& 7#w
      (tmp <<< 3) ^^^ BitVec.ofNat w (sbox.getD ind.toNat 0)) (x >>> (3 * boxes))).getLsbD i =
    if i < 3 * k then (sbox.getD ((x >>> (3 * (boxes - k + i / 3))) &&& 7#w).toNat 0).testBit (i % 3)
    else x.getLsbD (3 * boxes + (i - 3 * k)) := by
  intro k
  induction k with
  | zero =>
    intro _ i hi
    simp
  | succ k ih =>
    intro hk i hi
    rw [List.range_succ, List.foldl_append, List.foldl_cons, List.foldl_nil]
    dsimp only
    rw [BitVec.getLsbD_xor, BitVec.getLsbD_shiftLeft, BitVec.getLsbD_ofNat]
    have h8' := getD_lt8 h8
    by_cases h3 : i < 3
    · have e1 : i / 3 = 0 := by omega
      have e2 : i % 3 = i := by omega
      simp [h3, hi, e1, e2, show i < 3 * (k + 1) by omega]
    · rw [testBit_small (h8' _) (by omega), ih (by omega) (i - 3) (by omega)]
      have e1 : (i - 3) % 3 = i % 3 := by omega
      have e2 : boxes - k + (i - 3) / 3 = boxes - (k + 1) + i / 3 := by omega
      by_cases h4 : i < 3 * (k + 1)
      · rw [if_pos (by omega), if_pos h4, e1, e2]
        simp [h3, hi]
      · rw [if_neg (by omega), if_neg h4, show i - 3 - 3 * k = i - 3 * (k + 1) by omega]
        simp [h3, hi]

theorem subst_bit {w : ℕ} {sbox : List ℕ} (h8 : ∀ v ∈ sbox, v < 8) (boxes : ℕ) (x : BitVec w) {i : ℕ} (hi : i < w) :
    (substitution boxes sbox x).getLsbD i =
    if i < 3 * boxes then (sbox.getD ((x >>> (3 * (i / 3))) &&& 7#w).toNat 0).testBit (i % 3) else x.getLsbD i := by
  unfold substitution
  rw [subst_loop h8 boxes x boxes (le_refl _) i hi, Nat.sub_self, Nat.zero_add]
  split
  · rfl
  · congr 1; omega

/-- the number in a box -/
theorem box_toNat {w : ℕ} (hw : 3 ≤ w) (x : BitVec w) (k : ℕ) : ((x >>> k) &&& 7#w).toNat =
    4 * (x.getLsbD (k + 2)).toNat + 2 * (x.getLsbD (k + 1)).toNat + (x.getLsbD k).toNat := by
  have h7 : (7#w).toNat = 2 ^ 3 - 1 := by
    rw [BitVec.toNat_ofNat]
    refine Nat.mod_eq_of_lt ?_
    calc 7 < 2 ^ 3 := by norm_num
      _ ≤ 2 ^ w := Nat.pow_le_pow_right (by omega) hw
  rw [BitVec.toNat_and, h7, Nat.and_two_pow_sub_one_eq_mod, BitVec.toNat_ushiftRight, Nat.shiftRight_eq_div_pow]
  have hb : ∀ i, x.getLsbD (k + i) = (x.toNat / 2 ^ k).testBit i := fun i => by
    rw [BitVec.getLsbD, Nat.testBit_div_two_pow, Nat.add_comm]
  rw [show x.getLsbD k = x.getLsbD (k + 0) from rfl, hb, hb, hb]
  generalize x.toNat / 2 ^ k = y
  have e : ∀ i < 3, y.testBit i = (y % 2 ^ 3).testBit i := fun i hi => by
    rw [Nat.testBit_mod_two_pow]; simp [hi]
  rw [e 0 (by omega), e 1 (by omega), e 2 (by omega)]
  have : y % 2 ^ 3 < 8 := Nat.mod_lt _ (by norm_num)
  generalize y % 2 ^ 3 = v at this
  interval_cases v <;> decide

theorem box_of {w : ℕ} (hw : 3 ≤ w) {x : BitVec w} {k v : ℕ} (hv : v < 8) (h : ∀ i < 3, x.getLsbD (k + i) = v.testBit i) :
    ((x >>> k) &&& 7#w).toNat = v := by
  rw [box_toNat hw, h 2 (by omega), h 1 (by omega), show x.getLsbD k = x.getLsbD (k + 0) from rfl, h 0 (by omega)]
  interval_cases v <;> decide

theorem kSBox_lt : ∀ v ∈ kSBox, v < 8 := by decide
theorem kInvSBox_lt : ∀ v ∈ kInvSBox, v < 8 := by decide

theorem subst_box {w : ℕ} {sbox : List ℕ} (h8 : ∀ v ∈ sbox, v < 8) {boxes : ℕ} (hw : 3 * boxes ≤ w) (x : BitVec w) {i : ℕ}
    (hi : i < boxes) : ((substitution boxes sbox x >>> (3 * i)) &&& 7#w).toNat =
      sbox.getD ((x >>> (3 * i)) &&& 7#w).toNat 0 := by
  refine box_of (by omega) (getD_lt8 h8 _) fun j hj => ?_
  rw [subst_bit h8 boxes x (by omega), if_pos (by omega), show (3 * i + j) / 3 = i by omega, show (3 * i + j) % 3 = j by omega]

theorem inv_table : ∀ v < 8, kInvSBox.getD (kSBox.getD v 0) 0 = v := by decide

theorem box_lt {w : ℕ} (hw : 3 ≤ w) (x : BitVec w) (k : ℕ) : ((x >>> k) &&& 7#w).toNat < 8 := by
  rw [box_toNat hw]
  cases x.getLsbD (k + 2) <;> cases x.getLsbD (k + 1) <;> cases x.getLsbD k <;> decide

theorem subst_inv {w boxes : ℕ} (hw : 3 * boxes ≤ w) (x : BitVec w) :
    substitution boxes kInvSBox (substitution boxes kSBox x) = x := by
  refine BitVec.eq_of_getLsbD_eq fun i hi => ?_
  rw [subst_bit kInvSBox_lt boxes _ hi]
  split
  · rename_i hb
    rw [subst_box kSBox_lt hw x (by omega), inv_table _ (box_lt (by omega) _ _), box_toNat (by omega)]
    have h3 : i % 3 = 0 ∨ i % 3 = 1 ∨ i % 3 = 2 := by omega
    have e : x.getLsbD i = x.getLsbD (3 * (i / 3) + i % 3) := by congr 1; omega
    rw [e]
    rcases h3 with h | h | h <;> rw [h] <;>
      cases x.getLsbD (3 * (i / 3) + 2) <;> cases x.getLsbD (3 * (i / 3) + 1) <;> cases hz : x.getLsbD (3 * (i / 3)) <;>
      simp_all <;> decide
  · rename_i hb
    rw [subst_bit kSBox_lt boxes _ hi, if_neg hb]

theorem sbox_table : ∀ a b c : Bool,
    bz ((kSBox.getD (4 * a.toNat + 2 * b.toNat + c.toNat) 0).testBit 2) = bz a + bz b * bz c ∧
    bz ((kSBox.getD (4 * a.toNat + 2 * b.toNat + c.toNat) 0).testBit 1) = bz a + bz b + bz a * bz c ∧
    bz ((kSBox.getD (4 * a.toNat + 2 * b.toNat + c.toNat) 0).testBit 0) = bz a + bz b + bz c + bz a * bz b := by decide

theorem gfBit_bitsOf {w : ℕ} (x : BitVec w) (i : ℕ) : gfBit (gfBits x) i = bz (x.getLsbD i) := by
  unfold gfBit
  split
  · rfl
  · rw [BitVec.getLsbD_of_ge _ _ (by omega)]; rfl

theorem subst_layer {w boxes : ℕ} (hw : 3 * boxes ≤ w) (x : BitVec w) :
    gfBits (substitution boxes kSBox x) = sboxLayer boxes (gfBits x) := by
  funext t
  rw [gfBits_apply, subst_bit kSBox_lt boxes x t.isLt]
  unfold sboxLayer
  dsimp only
  simp only [gfBit_bitsOf]
  split
  · rename_i hb
    rw [box_toNat (by omega)]
    obtain ⟨h2, h1, h0⟩ := sbox_table (x.getLsbD (3 * (t / 3) + 2)) (x.getLsbD (3 * (t / 3) + 1)) (x.getLsbD (3 * (t / 3)))
    have h3 : t.val % 3 = 0 ∨ t.val % 3 = 1 ∨ t.val % 3 = 2 := by omega
    rcases h3 with h | h | h
    · rw [h, h0]; rfl
    · rw [h, h1]; rfl
    · rw [h, h2]; rfl
  · rfl

end Spu.Lemmas.LowMC

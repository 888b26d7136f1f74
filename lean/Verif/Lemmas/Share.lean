import Verif.Model.Semi2k
import Verif.Spec.Share
import Mathlib.Tactic.Ring
import Mathlib.Tactic.LinearCombination

set_option autoImplicit false

/-! # Lemmas about share vectors -/

namespace Spu.Lemmas
open Spu.Model Spu.Spec Finset

theorem foldl_skip_add {R : Type*} [AddCommMonoid R] {n : ℕ} (l : List (Fin n)) (f : Fin n → R)
    (r : Fin n) (z : R) (hn : l.Nodup) :
    l.foldl (fun res idx => if idx = r then res else res + f idx) z
      = z + (l.map (fun i => if i = r then 0 else f i)).sum := by
  induction l generalizing z with
  | nil => simp
  | cons a l ih =>
    have hn' := (List.nodup_cons.1 hn).2
    simp only [List.foldl_cons, List.map_cons, List.sum_cons]
    by_cases h : a = r
    · simp [h, ih _ hn']
    · simp [h, ih _ hn', add_assoc]

theorem sum_finRange {R : Type*} [AddCommMonoid R] {n : ℕ} (f : Fin n → R) :
    ((List.finRange n).map f).sum = ∑ i, f i := by
  rw [← List.ofFn_eq_map, List.sum_ofFn]

theorem allReduce_add {R : Type*} [AddCommMonoid R] {n : ℕ} (s : Fin n → R) (r : Fin n) :
    allReduce (· + ·) s r = total s := by
  unfold allReduce total
  rw [foldl_skip_add _ _ _ _ (List.nodup_finRange n), sum_finRange]
  rw [← Finset.add_sum_erase univ s (mem_univ r)]
  congr 1
  rw [← Finset.add_sum_erase univ _ (mem_univ r)]
  simp only [if_true, zero_add]
  exact Finset.sum_congr rfl (fun i hi => by simp [(Finset.mem_erase.1 hi).1])

theorem gatherSum_add {R : Type*} [AddCommMonoid R] {n : ℕ} (s : Fin n → R) (z : R) :
    gatherSum (· + ·) z s = z + total s := by
  unfold gatherSum total
  rw [← sum_finRange]
  generalize List.finRange n = l
  induction l generalizing z with
  | nil => simp
  | cons a l ih => simp [ih, add_assoc]

theorem total_ite_add {R : Type*} [AddCommMonoid R] {n : ℕ} (k : Fin n) (f g : Fin n → R) :
    total (fun i => if i = k then f i + g i else f i) = total f + g k := by
  unfold total
  have : ∀ i, (if i = k then f i + g i else f i) = f i + (if i = k then g i else 0) := by
    intro i; split <;> simp
  simp only [this, Finset.sum_add_distrib, Finset.sum_ite_eq', Finset.mem_univ, if_true]

theorem total_add {R : Type*} [AddCommMonoid R] {n : ℕ} (f g : Fin n → R) :
    total (fun i => f i + g i) = total f + total g := Finset.sum_add_distrib

theorem total_sub {R : Type*} [AddCommGroup R] {n : ℕ} (f g : Fin n → R) :
    total (fun i => f i - g i) = total f - total g := by
  unfold total; rw [Finset.sum_sub_distrib]

theorem total_shift {R : Type*} [AddCommMonoid R] {n : ℕ} [NeZero n] (f : Fin n → R) :
    total (fun i => f (i + 1)) = total f := by
  unfold total
  exact Equiv.sum_comp (Equiv.addRight (1 : Fin n)) f

theorem total_mul_left {R : Type*} [CommRing R] {n : ℕ} (f : Fin n → R) (r : R) :
    total (fun i => r * f i) = r * total f := by
  unfold total; rw [Finset.mul_sum]

theorem total_mul_right {R : Type*} [CommRing R] {n : ℕ} (f : Fin n → R) (r : R) :
    total (fun i => f i * r) = total f * r := by
  unfold total; rw [Finset.sum_mul]

/-! ### xor sharings via the boolean ring of bit functions -/

/-- the bits of a word as an element of the boolean ring `Fin w → Bool` -/
def bitsOf {w : ℕ} (x : BitVec w) : Fin w → Bool := fun i => x.getLsbD i

theorem bitsOf_inj {w : ℕ} {x y : BitVec w} (h : bitsOf x = bitsOf y) : x = y := by
  apply BitVec.eq_of_getLsbD_eq
  intro i hi
  exact congrFun h ⟨i, hi⟩

theorem bitsOf_xor {w : ℕ} (x y : BitVec w) : bitsOf (x ^^^ y) = bitsOf x + bitsOf y := by
  funext i; simp [bitsOf, Bool.add_eq_xor]

theorem bitsOf_and {w : ℕ} (x y : BitVec w) : bitsOf (x &&& y) = bitsOf x * bitsOf y := by
  funext i; simp [bitsOf, Bool.mul_eq_and]

theorem bitsOf_zero {w : ℕ} : bitsOf (0 : BitVec w) = 0 := by
  funext i; exact BitVec.getLsbD_zero

theorem bitsOf_xorAll {w n : ℕ} (s : Fin n → BitVec w) :
    bitsOf (xorAll s) = total (fun i => bitsOf (s i)) := by
  unfold xorAll total
  rw [← List.sum_ofFn]
  have : ∀ l : List (BitVec w), bitsOf (l.foldr (· ^^^ ·) 0) = (l.map bitsOf).sum := by
    intro l
    induction l with
    | nil => exact bitsOf_zero
    | cons a l ih =>
      rw [List.foldr_cons, bitsOf_xor, ih, List.map_cons, List.sum_cons]
  rw [this, List.map_ofFn]; rfl

theorem bitsOf_allReduce {w n : ℕ} (s : Fin n → BitVec w) (r : Fin n) :
    bitsOf (allReduce (· ^^^ ·) s r) = total (fun i => bitsOf (s i)) := by
  rw [← allReduce_add _ r]
  unfold allReduce
  have : ∀ (l : List (Fin n)) (z : BitVec w),
      bitsOf (l.foldl (fun res idx => if idx = r then res else res ^^^ s idx) z)
        = l.foldl (fun res idx => if idx = r then res else res + bitsOf (s idx)) (bitsOf z) := by
    intro l
    induction l with
    | nil => intro z; rfl
    | cons a l ih =>
      intro z
      simp only [List.foldl_cons]
      rw [ih]
      split
      · rfl
      · rw [bitsOf_xor]
  exact this _ _

theorem allReduce_xor {w n : ℕ} (s : Fin n → BitVec w) (r : Fin n) :
    allReduce (· ^^^ ·) s r = xorAll s := by
  apply bitsOf_inj
  rw [bitsOf_allReduce, bitsOf_xorAll]

end Spu.Lemmas

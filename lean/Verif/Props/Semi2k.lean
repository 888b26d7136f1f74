import Verif.Lemmas.Share

set_option autoImplicit false

/-!
# C19, C20: semi2k sharing, opening and arithmetic

`total s` (sum of shares) and `xorAll s` (xor of shares) are the spec-level meaning of a sharing.
`R` is an arbitrary commutative ring, `n ≥ 1` an arbitrary number of parties.
-/

set_option linter.unusedSectionVars false

namespace Spu.Props
open Spu.Model Spu.Model.Semi2k Spu.Spec Spu.Lemmas Finset

variable {n : ℕ} [NeZero n] {R : Type*} [CommRing R]

/-! ## C19: sharing then opening -/

/-- C19: opening gives every party the same value, the sum of all shares. -/
theorem c19_a2p_agree (x : Fin n → R) (i : Fin n) : a2p x i = total x :=
  allReduce_add x i

theorem total_p2a (r0 r1 : Fin n → R) (h : PrssOk r0 r1) (p : R) : total (p2a r0 r1 p) = p := by
  have h1 : p2a r0 r1 p = fun i => if i = 0 then (r0 i - r1 i) + p else r0 i - r1 i := rfl
  have h2 : r1 = fun i => r0 (i + 1) := funext h
  rw [h1, total_ite_add 0 (fun i => r0 i - r1 i) (fun _ => p), total_sub, h2, total_shift]
  simp

/-- C19: a public value turned into shares and opened again is the same value at every party,
whatever the correlated randomness. -/
theorem c19_p2a_a2p (r0 r1 : Fin n → R) (h : PrssOk r0 r1) (p : R) (i : Fin n) :
    a2p (p2a r0 r1 p) i = p := by
  rw [c19_a2p_agree, total_p2a _ _ h]

/-- C19: a private value of `owner`, shared (`V2A`) and revealed to any party `rank` (`A2V`), arrives
unchanged there; the other parties get the zero dummy. -/
theorem c19_v2a_a2v (r0 r1 : Fin n → R) (h : PrssOk r0 r1) (owner rank : Fin n)
    (inp : Fin n → R) :
    a2v (v2a r0 r1 owner inp) rank rank = inp owner ∧
    ∀ j, j ≠ rank → a2v (v2a r0 r1 owner inp) rank j = 0 := by
  have h2 : r1 = fun i => r0 (i + 1) := funext h
  have ht : total (v2a r0 r1 owner inp) = inp owner := by
    have h1 : v2a r0 r1 owner inp
      = fun i => if i = owner then (r0 i - r1 i) + inp i else r0 i - r1 i := rfl
    rw [h1, total_ite_add owner (fun i => r0 i - r1 i) inp, total_sub, h2, total_shift]
    simp
  constructor
  · simp [a2v, gatherSum_add, ht]
  · intro j hj; simp [a2v, hj]

/-- C19: sharing an input for the whole runtime (`toShares`) and reconstructing the output
(`fromShares`) is the identity for every choice of randomness. -/
theorem c19_io_roundtrip (raw : R) (rnd : Fin n → R) :
    fromSharesA (additiveSplits raw rnd) = raw := by
  unfold fromSharesA
  rw [gatherSum_add, zero_add]
  have hf : ∀ (l : List (Fin n)) (z : R),
      l.foldl (fun acc j => if j = 0 then acc else acc - rnd j) z
        = z - (l.map (fun j => if j = 0 then 0 else rnd j)).sum := by
    intro l
    induction l with
    | nil => intro z; simp
    | cons a l ih =>
      intro z
      simp only [List.foldl_cons, List.map_cons, List.sum_cons]
      rw [ih]
      split <;> ring
  have h1 : additiveSplits raw rnd = fun i =>
      if i = 0 then (fun j : Fin n => if j = 0 then 0 else rnd j) i +
        (raw - ∑ j : Fin n, if j = 0 then 0 else rnd j)
      else (fun j : Fin n => if j = 0 then 0 else rnd j) i := by
    funext i
    unfold additiveSplits
    by_cases hi : i = 0
    · simp only [hi, if_true, zero_add]
      rw [hf, sum_finRange]
    · simp [hi]
  rw [h1, total_ite_add 0 (fun j : Fin n => if j = 0 then (0 : R) else rnd j)
    (fun _ => raw - ∑ j : Fin n, if j = 0 then 0 else rnd j)]
  unfold total
  ring

/-- C19 (boolean): sharing a public word and opening it is the identity at every party. -/
theorem c19_p2b_b2p {w : ℕ} (r0 r1 : Fin n → BitVec w) (h : ∀ i, r1 i = r0 (i + 1))
    (p : BitVec w) (i : Fin n) : b2p (p2b r0 r1 p) i = p := by
  unfold b2p
  apply bitsOf_inj
  rw [bitsOf_allReduce]
  have h2 : r1 = fun i => r0 (i + 1) := funext h
  have : (fun i => bitsOf (p2b r0 r1 p i)) =
      fun i => if i = 0 then (bitsOf (r0 i) + bitsOf (r0 (i + 1))) + bitsOf p
        else bitsOf (r0 i) + bitsOf (r0 (i + 1)) := by
    funext i
    unfold p2b
    split <;> simp [bitsOf_xor, h i]
  rw [this, total_ite_add 0 (fun i => bitsOf (r0 i) + bitsOf (r0 (i + 1))) (fun _ => bitsOf p),
    total_add, total_shift (fun i => bitsOf (r0 i))]
  have hx : ∀ y : Fin w → Bool, y + y = 0 := by
    intro y; funext k; exact Bool.xor_self _
  rw [hx, zero_add]

/-- C19 (boolean): opening gives every party the xor of all shares. -/
theorem c19_b2p_agree {w : ℕ} (x : Fin n → BitVec w) (i : Fin n) : b2p x i = xorAll x :=
  allReduce_xor x i

-- the hypotheses are met by real runs: three parties in `Z/2^64`
example : PrssOk (n := 3) (R := ZMod (2 ^ 64)) ![5, 7, 11] ![7, 11, 5] := by
  intro i; fin_cases i <;> rfl
example : total (p2a (n := 3) (R := ZMod (2 ^ 8)) ![5, 7, 11] ![7, 11, 5] 42) = 42 :=
  total_p2a _ _ (by intro i; fin_cases i <;> rfl) _
example : p2a (n := 3) (R := ZMod (2 ^ 8)) ![5, 7, 11] ![7, 11, 5] 42 = ![40, 252, 6] := by
  decide +kernel

/-! ## C20: arithmetic on shares -/

/-- C20: local (communication-free) operations act on the shared value as the ring operation they
stand for. -/
theorem c20_local_ops (x y : Fin n → R) (p : R) (b : ℕ) :
    total (negateA x) = - total x ∧
    total (addAA x y) = total x + total y ∧
    total (addAP x p) = total x + p ∧
    total (mulAP x p) = total x * p ∧
    total (lshiftA x b) = total x * 2 ^ b := by
  refine ⟨?_, total_add x y, ?_, total_mul_right x p, total_mul_right x _⟩
  · unfold total negateA; rw [Finset.sum_neg_distrib]
  · exact total_ite_add 0 x (fun _ => p)

/-- A cache entry, when hit, holds the opened value of the very difference it replaces. -/
def HitOk {M : Type*} [AddCommGroup M] (hit : Option M) (x a : Fin n → M) : Prop := ∀ v, hit = some v → v = total x - total a

theorem openMasked_eq {M : Type*} [AddCommGroup M] (hit : Option M) (x a : Fin n → M) (h : HitOk hit x a) (i : Fin n) :
    openMasked hit x a i = total x - total a := by
  unfold openMasked
  cases hit with
  | none => simp [allReduce_add, total_sub]
  | some v => exact h v rfl

/-- C20: multiplication of two shared values with any valid dealer triple (and any valid
cached opening) yields shares of the product. -/
theorem c20_mul (hx hy : Option R) (x y a b c : Fin n → R)
    (hxo : HitOk hx x a) (hyo : HitOk hy y b) (htr : total c = total a * total b) :
    total (mulAA hx hy x y a b c) = total x * total y := by
  have h1 : mulAA hx hy x y a b c = fun i =>
      if i = 0 then ((b i * (total x - total a) + a i * (total y - total b)) + c i) +
          (total x - total a) * (total y - total b)
      else (b i * (total x - total a) + a i * (total y - total b)) + c i := by
    funext i
    simp only [mulAA, openMasked_eq hx x a hxo, openMasked_eq hy y b hyo]
  rw [h1, total_ite_add 0 (fun i => (b i * (total x - total a) + a i * (total y - total b)) + c i)
    (fun _ => (total x - total a) * (total y - total b)), total_add, total_add,
    total_mul_right, total_mul_right, htr]
  ring

/-- C20: squaring with any valid square pair. -/
theorem c20_square (hx : Option R) (x a b : Fin n → R)
    (hxo : HitOk hx x a) (hpair : total b = total a * total a) :
    total (squareA hx x a b) = total x * total x := by
  have h1 : squareA hx x a b = fun i =>
      if i = 0 then ((a i * (total x - total a)) * 2 + b i) +
          (total x - total a) * (total x - total a)
      else (a i * (total x - total a)) * 2 + b i := by
    funext i
    simp only [squareA, openMasked_eq hx x a hxo]
  rw [h1, total_ite_add 0 (fun i => (a i * (total x - total a)) * 2 + b i)
    (fun _ => (total x - total a) * (total x - total a)), total_add,
    total_mul_right, total_mul_right, hpair]
  ring

/-- the value of an xor-shared bit -/
def bitTotal (y : Fin n → Bool) : Bool := (List.ofFn y).foldr xor false

/-- C20: for two parties, multiplying an arithmetic share by an xor-shared bit selects: the result
shares the value if the bit is one, zero otherwise. -/
theorem c20_mul_bit (x : Fin 2 → R) (y : Fin 2 → Bool) (a b c : Fin 2 → R)
    (htr : total c = total a * total b) :
    total (mulA1B x y a b c) = if bitTotal y then total x else 0 := by
  have hv : total (mulA1B x y a b c) = x 0 * ((if y 0 then 1 else 0) + (if y 1 then 1 else 0)
      - 2 * (if y 0 then 1 else 0) * (if y 1 then 1 else 0))
      + x 1 * ((if y 0 then 1 else 0) + (if y 1 then 1 else 0)
      - 2 * (if y 0 then 1 else 0) * (if y 1 then 1 else 0)) := by
    unfold mulA1B
    simp only [openMasked, allReduce_add]
    simp only [total, Fin.sum_univ_two] at htr ⊢
    simp only [if_true, Fin.isValue, one_ne_zero, if_false]
    generalize (if y 0 = true then (1 : R) else 0) = y0
    generalize (if y 1 = true then (1 : R) else 0) = y1
    linear_combination htr
  rw [hv]
  simp only [bitTotal, total, Fin.sum_univ_two]
  cases h0 : y 0 <;> cases h1 : y 1 <;> simp [List.ofFn_succ, h0, h1]
  ring

/-- C20: private-by-private multiplication (two owners) with any valid dealer pair. -/
theorem c20_mul_private (inp a c : Fin 2 → R) (hpair : c 0 + c 1 = a 0 * a 1) :
    total (mulVVS inp a c) = inp 0 * inp 1 := by
  have e1 : ((0 : Fin 2) - 1) = 1 := rfl
  have e2 : ((1 : Fin 2) - 1) = 0 := rfl
  simp only [total, Fin.sum_univ_two, mulVVS, if_true, Fin.isValue, one_ne_zero, if_false, e1, e2]
  linear_combination hpair

theorem total_matmul_right {m k l : Type*} [Fintype k]
    (x : Fin n → Matrix m k R) (p : Matrix k l R) :
    total (fun i => x i * p) = total x * p := by
  unfold total; rw [Matrix.sum_mul]

theorem total_matmul_left {m k l : Type*} [Fintype k]
    (x : Fin n → Matrix k l R) (p : Matrix m k R) :
    total (fun i => p * x i) = p * total x := by
  unfold total; rw [Matrix.mul_sum]

/-- C20: matrix product with a public matrix. -/
theorem c20_matmul_public {m k l : Type*} [Fintype k]
    (x : Fin n → Matrix m k R) (p : Matrix k l R) :
    total (matMulAP x p) = total x * p := total_matmul_right x p

/-- C20: matrix product of two shared matrices with any valid matrix triple (and any valid cached
opening). -/
theorem c20_matmul {m k l : Type*} [Fintype k]
    (hx : Option (Matrix m k R)) (hy : Option (Matrix k l R))
    (x a : Fin n → Matrix m k R) (y b : Fin n → Matrix k l R) (c : Fin n → Matrix m l R)
    (hxo : HitOk hx x a) (hyo : HitOk hy y b)
    (htr : total c = total a * total b) :
    total (matMulAA hx hy x a y b c) = total x * total y := by
  have h1 : matMulAA hx hy x a y b c = fun i =>
      if i = 0 then (((total x - total a) * b i + a i * (total y - total b)) + c i) +
          (total x - total a) * (total y - total b)
      else ((total x - total a) * b i + a i * (total y - total b)) + c i := by
    funext i
    simp only [matMulAA, openMasked_eq hx x a hxo, openMasked_eq hy y b hyo]
  rw [h1, total_ite_add 0
    (fun i => ((total x - total a) * b i + a i * (total y - total b)) + c i)
    (fun _ => (total x - total a) * (total y - total b)), total_add, total_add,
    total_matmul_left, total_matmul_right, htr]
  simp only [Matrix.sub_mul, Matrix.mul_sub]
  abel

/-! ### boolean kernels -/

theorem bitsOf_eq_total {w : ℕ} (s : Fin n → BitVec w) (v : BitVec w)
    (h : total (fun i => bitsOf (s i)) = bitsOf v) : xorAll s = v := by
  apply bitsOf_inj; rw [bitsOf_xorAll, h]

/-- C20: local boolean operations act on the shared word. -/
theorem c20_local_bool {w : ℕ} (x y : Fin n → BitVec w) (p : BitVec w) :
    xorAll (xorBB x y) = xorAll x ^^^ xorAll y ∧
    xorAll (xorBP x p) = xorAll x ^^^ p ∧
    xorAll (andBP x p) = xorAll x &&& p := by
  refine ⟨?_, ?_, ?_⟩
  · apply bitsOf_eq_total
    simp only [xorBB, bitsOf_xor, bitsOf_xorAll]
    exact total_add _ _
  · apply bitsOf_eq_total
    have : (fun i => bitsOf (xorBP x p i)) =
        fun i => if i = 0 then bitsOf (x i) + bitsOf p else bitsOf (x i) := by
      funext i; unfold xorBP; split <;> simp [bitsOf_xor]
    rw [this, total_ite_add 0 (fun i => bitsOf (x i)) (fun _ => bitsOf p), bitsOf_xor, bitsOf_xorAll]
  · apply bitsOf_eq_total
    simp only [andBP, bitsOf_and, bitsOf_xorAll]
    exact total_mul_right (fun i => bitsOf (x i)) (bitsOf p)

theorem xorAll_bit {w : ℕ} (s : Fin n → BitVec w) (k : ℕ) :
    (xorAll s).getLsbD k = (List.ofFn (fun i => (s i).getLsbD k)).foldr xor false := by
  unfold xorAll
  rw [show (fun i => (s i).getLsbD k) = (fun x : BitVec w => x.getLsbD k) ∘ s from rfl,
    ← List.map_ofFn]
  generalize List.ofFn s = l
  induction l with
  | nil => simp
  | cons a l ih => rw [List.foldr_cons, BitVec.getLsbD_xor, ih]; rfl

theorem foldr_xor_false {n : ℕ} : (List.ofFn (fun _ : Fin n => false)).foldr xor false = false := by
  induction n with
  | zero => rfl
  | succ n ih => rw [List.ofFn_succ, List.foldr_cons, ih]; rfl

/-- C20: shifting every share shifts the shared word (logical left/right and arithmetic right),
for every shift amount. -/
theorem c20_shift_bool {w : ℕ} (x : Fin n → BitVec w) (s : ℕ) :
    xorAll (lshiftB x s) = xorAll x <<< s ∧
    xorAll (rshiftB x s) = xorAll x >>> s ∧
    xorAll (arshiftB x s) = (xorAll x).sshiftRight s := by
  refine ⟨?_, ?_, ?_⟩
  · apply BitVec.eq_of_getLsbD_eq
    intro k hk
    rw [xorAll_bit, BitVec.getLsbD_shiftLeft, xorAll_bit]
    simp only [lshiftB, BitVec.getLsbD_shiftLeft, hk, decide_true, Bool.true_and]
    by_cases h : k < s
    · simp only [h, decide_true, Bool.not_true, Bool.false_and, foldr_xor_false]
    · simp [h]
  · apply BitVec.eq_of_getLsbD_eq
    intro k hk
    rw [xorAll_bit, BitVec.getLsbD_ushiftRight, xorAll_bit]
    simp only [rshiftB, BitVec.getLsbD_ushiftRight]
  · apply BitVec.eq_of_getLsbD_eq
    intro k hk
    rw [xorAll_bit, BitVec.getLsbD_sshiftRight]
    simp only [arshiftB, BitVec.getLsbD_sshiftRight, BitVec.msb_eq_getLsbD_last, xorAll_bit]
    have : ¬ w ≤ k := by omega
    simp only [this, decide_false, Bool.not_false, Bool.true_and]
    by_cases h : s + k < w <;> simp [h]

theorem bitsOf_setWidth_xor {w v : ℕ} (x y : BitVec v) :
    (x ^^^ y).setWidth w = x.setWidth w ^^^ y.setWidth w := by
  apply BitVec.eq_of_getLsbD_eq
  intro k hk; simp [hk]

theorem setWidth_xorAll {w v : ℕ} (s : Fin n → BitVec v) :
    (xorAll s).setWidth w = xorAll (fun i => (s i).setWidth w) := by
  unfold xorAll
  rw [show (fun i => (s i).setWidth w) = (fun x : BitVec v => x.setWidth w) ∘ s from rfl,
    ← List.map_ofFn]
  generalize List.ofFn s = l
  induction l with
  | nil => simp
  | cons a l ih => rw [List.foldr_cons, bitsOf_setWidth_xor, ih]; rfl

/-- C20: AND of two shared words with any valid dealer triple on `v`-bit words; if one of the
operands fits in `v` bits the result is exactly the AND of the shared words. -/
theorem c20_and {w v : ℕ} (x y : Fin n → BitVec w) (a b c : Fin n → BitVec v)
    (hfit : (xorAll x).toNat < 2 ^ v ∨ (xorAll y).toNat < 2 ^ v)
    (htr : xorAll c = xorAll a &&& xorAll b) :
    xorAll (andBB x y a b c) = xorAll x &&& xorAll y := by
  -- the `v`-bit protocol
  let z : Fin n → BitVec v := fun i =>
    let mx := allReduce (· ^^^ ·) (fun j => (x j).setWidth v ^^^ a j) i
    let my := allReduce (· ^^^ ·) (fun j => (y j).setWidth v ^^^ b j) i
    if i = 0 then ((c i ^^^ (mx &&& b i)) ^^^ (my &&& a i)) ^^^ (mx &&& my)
    else (c i ^^^ (mx &&& b i)) ^^^ (my &&& a i)
  have hz : andBB x y a b c = fun i => (z i).setWidth w := by
    funext i
    simp only [andBB, z]
    split <;> simp only [bitsOf_setWidth_xor]
  rw [hz, ← setWidth_xorAll]
  have hX : ∀ i, allReduce (· ^^^ ·) (fun j => (x j).setWidth v ^^^ a j) i
      = (xorAll x).setWidth v ^^^ xorAll a := by
    intro i
    rw [allReduce_xor, setWidth_xorAll]
    exact (c20_local_bool (fun j => (x j).setWidth v) a 0).1
  have hY : ∀ i, allReduce (· ^^^ ·) (fun j => (y j).setWidth v ^^^ b j) i
      = (xorAll y).setWidth v ^^^ xorAll b := by
    intro i
    rw [allReduce_xor, setWidth_xorAll]
    exact (c20_local_bool (fun j => (y j).setWidth v) b 0).1
  have hzv : xorAll z = (xorAll x).setWidth v &&& (xorAll y).setWidth v := by
    apply bitsOf_eq_total
    simp only [z, hX, hY]
    generalize (xorAll x).setWidth v = X
    generalize (xorAll y).setWidth v = Y
    have : (fun i => bitsOf (if i = 0 then
          ((c i ^^^ ((X ^^^ xorAll a) &&& b i)) ^^^ ((Y ^^^ xorAll b) &&& a i)) ^^^
            ((X ^^^ xorAll a) &&& (Y ^^^ xorAll b))
          else (c i ^^^ ((X ^^^ xorAll a) &&& b i)) ^^^ ((Y ^^^ xorAll b) &&& a i)))
        = fun i => if i = 0 then ((bitsOf (c i) + bitsOf (X ^^^ xorAll a) * bitsOf (b i))
            + bitsOf (Y ^^^ xorAll b) * bitsOf (a i))
            + bitsOf (X ^^^ xorAll a) * bitsOf (Y ^^^ xorAll b)
          else (bitsOf (c i) + bitsOf (X ^^^ xorAll a) * bitsOf (b i))
            + bitsOf (Y ^^^ xorAll b) * bitsOf (a i) := by
      funext i
      split <;> simp only [bitsOf_xor, bitsOf_and]
    rw [this, total_ite_add 0 (fun i => (bitsOf (c i) + bitsOf (X ^^^ xorAll a) * bitsOf (b i))
            + bitsOf (Y ^^^ xorAll b) * bitsOf (a i))
            (fun _ => bitsOf (X ^^^ xorAll a) * bitsOf (Y ^^^ xorAll b)),
      total_add, total_add, total_mul_left, total_mul_left, ← bitsOf_xorAll, ← bitsOf_xorAll,
      ← bitsOf_xorAll, htr]
    simp only [bitsOf_xor, bitsOf_and]
    have hx2 : ∀ y : Fin v → Bool, y + y = 0 := by
      intro y; funext k; exact Bool.xor_self _
    linear_combination hx2 (bitsOf X * bitsOf (xorAll b)) + hx2 (bitsOf Y * bitsOf (xorAll a)) +
      2 * hx2 (bitsOf (xorAll a) * bitsOf (xorAll b))
  rw [hzv]
  have hbit : ∀ (t : BitVec w), t.toNat < 2 ^ v → ∀ k, v ≤ k → t.getLsbD k = false := by
    intro t ht k hk
    rw [BitVec.getLsbD]
    exact Nat.testBit_lt_two_pow (lt_of_lt_of_le ht (Nat.pow_le_pow_right (by norm_num) hk))
  apply BitVec.eq_of_getLsbD_eq
  intro k hk
  simp only [BitVec.getLsbD_setWidth, BitVec.getLsbD_and, hk, decide_true, Bool.true_and]
  by_cases hkv : k < v
  · simp [hkv]
  · simp only [hkv, decide_false, Bool.false_and]
    rcases hfit with hf | hf
    · rw [hbit _ hf k (by omega)]; rfl
    · rw [hbit _ hf k (by omega)]; simp

/-- the back type holds the declared number of bits, and is the smallest of the available ones -/
theorem c20_back_type {nbits v : ℕ} (h : backBits nbits = some v) :
    nbits ≤ v ∧ v ∈ [8, 16, 32, 64, 128] ∧ ∀ u ∈ [8, 16, 32, 64, 128], nbits ≤ u → v ≤ u := by
  unfold backBits at h
  split_ifs at h <;> cases h <;> refine ⟨by omega, by simp, ?_⟩ <;> intro u hu hn <;>
    simp only [List.mem_cons, List.not_mem_nil, or_false] at hu <;> omega

/-- C20/C26: `AndBB` as the kernel runs it, with the word size chosen from the declared bit counts:
for declared counts that are at most 128 the kernel does not throw, and if the declared counts are
sound the result is the AND, and the declared count of the result (`min`) is sound. -/
theorem c20_and_declared {w nx ny : ℕ} (x y : Fin n → BitVec w)
    (hx : (xorAll x).toNat < 2 ^ nx) (hy : (xorAll y).toNat < 2 ^ ny) (hmin : min nx ny ≤ 128) :
    ∃ v, backBits (min nx ny) = some v ∧ ∀ a b c : Fin n → BitVec v,
      xorAll c = xorAll a &&& xorAll b →
      xorAll (andBB x y a b c) = xorAll x &&& xorAll y ∧
        (xorAll (andBB x y a b c)).toNat < 2 ^ (min nx ny) := by
  obtain ⟨v, hv⟩ : ∃ v, backBits (min nx ny) = some v := by
    unfold backBits
    split_ifs <;> first | exact ⟨_, rfl⟩ | omega
  refine ⟨v, hv, fun a b c htr => ?_⟩
  have hle := (c20_back_type hv).1
  have key : xorAll (andBB x y a b c) = xorAll x &&& xorAll y := by
    refine c20_and x y a b c ?_ htr
    rcases le_total nx ny with h | h
    · rw [min_eq_left h] at hle
      exact Or.inl (lt_of_lt_of_le hx (Nat.pow_le_pow_right (by norm_num) hle))
    · rw [min_eq_right h] at hle
      exact Or.inr (lt_of_lt_of_le hy (Nat.pow_le_pow_right (by norm_num) hle))
  refine ⟨key, ?_⟩
  rw [key, BitVec.toNat_and]
  rcases le_total nx ny with h | h
  · rw [min_eq_left h]; exact lt_of_le_of_lt Nat.and_le_left hx
  · rw [min_eq_right h]; exact lt_of_le_of_lt Nat.and_le_right hy

-- concrete non-trivial instances of the hypotheses
example : total (mulAA (n := 2) (R := ZMod (2 ^ 8)) none none ![200, 13] ![9, 250] ![3, 4] ![5, 6]
    ![70, 7]) = (213 : ZMod (2 ^ 8)) * 3 :=
  c20_mul _ _ _ _ _ _ _ (by intro v h; cases h) (by intro v h; cases h) (by decide +kernel)
example : total (squareA (n := 2) (R := ZMod (2 ^ 8)) (some 206) ![200, 13] ![3, 4] ![40, 9])
    = (213 : ZMod (2 ^ 8)) * 213 :=
  c20_square _ _ _ _ (by intro v h; cases h; decide +kernel) (by decide +kernel)
example : total (mulA1B (R := ZMod (2 ^ 8)) ![200, 13] ![true, false] ![3, 4] ![5, 6] ![70, 7])
    = (213 : ZMod (2 ^ 8)) :=
  c20_mul_bit _ _ _ _ _ (by decide +kernel)
example : xorAll (andBB (n := 2) (w := 32) (v := 8) ![0xF0FF#32, 0xF000#32] ![0x1234#32, 0x4321#32]
    ![0x5A#8, 0xA5#8] ![0x0F#8, 0x30#8] ![0x3C#8, 0x03#8]) = 0x00FF#32 &&& 0x5115#32 :=
  c20_and _ _ _ _ _ (Or.inl (by decide +kernel)) (by decide +kernel)

-- declared counts 9 and 16: the back type must have 16 bits
example : ∃ v, backBits (min 9 16) = some v ∧ ∀ a b c : Fin 2 → BitVec v,
      xorAll c = xorAll a &&& xorAll b →
      xorAll (andBB (w := 32) ![0xF0FF#32, 0xF100#32] ![0x1234#32, 0x4321#32] a b c)
        = 0x1FF#32 &&& 0x5115#32 := by
  obtain ⟨v, hv, h⟩ := c20_and_declared (n := 2) (w := 32) (nx := 9) (ny := 16)
    ![0xF0FF#32, 0xF100#32] ![0x1234#32, 0x4321#32] (by decide +kernel) (by decide +kernel)
    (by decide)
  exact ⟨v, hv, fun a b c ht => (h a b c ht).1⟩

end Spu.Props

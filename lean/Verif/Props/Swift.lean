import Verif.Lemmas.Swift
import Verif.Lemmas.Word
import Mathlib.Data.Nat.Prime.Basic

set_option autoImplicit false

/-! # C87: SWIFT's arithmetic shares -/

namespace Spu.Props.Swift
open Spu.Model.Swift Spu.Spec.Swift Spu.Lemmas.Swift Spu.Lemmas

section Ring
variable {R : Type} [Ring R]

/-! ## Opening and closing -/

/-- **C87**: every party opens a shared value to the same ring element, and nothing is reported. -/
theorem c87_a2p (H : HashFn) {x : Fin 3 → Shr R} {v : R} (h : Shares x v) (u : R) (al : Bool) :
    (a2p H x u).run al = some (fun _ => v, al) := by
  obtain ⟨a1, a2, be, ga, l, rfl⟩ := h
  unfold a2p
  rw [StateT.run_bind, jmp_run _ _ _ _ _ (by simp [beOf, l.p1, l.p2])]
  simp only [Option.bind_eq_bind, Option.bind_some]
  rw [StateT.run_bind, jmp_run _ _ _ _ _ (by simp [al1Of, l.p0, l.p1])]
  simp only [Option.bind_eq_bind, Option.bind_some]
  rw [StateT.run_bind, jmp_run _ _ _ _ _ (by simp [al2Of, l.p0, l.p2])]
  simp only [Option.bind_eq_bind, Option.bind_some]
  refine congrArg some (Prod.ext ?_ rfl)
  funext i
  fin_cases i <;> simp [beOf, al1Of, al2Of, Function.update, l.p0, l.p1, l.p2]

/-- **C87**: so does a single party. -/
theorem c87_a2v (H : HashFn) {x : Fin 3 → Shr R} {v : R} (h : Shares x v) (dst : Fin 3) (u : R) (al : Bool) :
    (a2v H x dst u).run al = some (v, al) := by
  obtain ⟨a1, a2, be, ga, l, rfl⟩ := h
  have e1 : jmp H 1 2 0 (beOf x u) = fun al => some (Function.update (beOf x u) 0 (beOf x u 1), al) := by
    funext al
    exact jmp_run _ _ _ _ _ (by simp [beOf, l.p1, l.p2]) al
  have e2 : jmp H 2 0 1 (al2Of x u) = fun al => some (Function.update (al2Of x u) 1 (al2Of x u 2), al) := by
    funext al
    exact jmp_run _ _ _ _ _ (by simp [al2Of, l.p0, l.p2]) al
  have e3 : jmp H 0 1 2 (al1Of x u) = fun al => some (Function.update (al1Of x u) 2 (al1Of x u 0), al) := by
    funext al
    exact jmp_run _ _ _ _ _ (by simp [al1Of, l.p0, l.p1]) al
  unfold a2v
  rw [e1, e2, e3]
  fin_cases dst <;>
    simp [StateT.run, bind, StateT.bind, pure, StateT.pure, Function.update, beOf, al1Of, al2Of, l.p0, l.p1, l.p2]

/-- **C87**: a party shares its value; the words of the layout are named, so that the masks the other two
parties do not both know can be read off. -/
theorem c87_v2a (H : HashFn) (owner : Fin 3) (v : R) {r0 r1 : Fin 3 → R} (hr : Paired r0 r1) (r2 u : R) (al : Bool) :
    ∃ z, (sharing H owner v r0 r1 r2 u).run al = some (z, al) ∧ Shares z v ∧
      Layout z (if owner = 2 then r2 else r0 1) (if owner = 1 then r2 else r0 0)
        (v + ((if owner = 2 then r2 else r0 1) + (if owner = 1 then r2 else r0 0)))
        (if owner = 0 then r2 else r0 2) := by
  obtain ⟨e0, e1, e2⟩ := Paired.eqs hr
  have key : ∃ z, (sharing H owner v r0 r1 r2 u).run al = some (z, al) ∧
      Layout z (if owner = 2 then r2 else r0 1) (if owner = 1 then r2 else r0 0)
        (v + ((if owner = 2 then r2 else r0 1) + (if owner = 1 then r2 else r0 0)))
        (if owner = 0 then r2 else r0 2) := by
    have c : owner = 0 ∨ owner = 1 ∨ owner = 2 := by fin_cases owner <;> simp
    rcases c with rfl | rfl | rfl
    · simp only [sharing, if_true]
      rw [StateT.run_bind, jmp_run _ _ _ _ _ (by simp)]
      exact ⟨_, rfl, by simp [pack, Function.update, e0], by simp [pack, Function.update, e0],
        by simp [pack, Function.update, e0, e2]⟩
    · simp only [sharing, if_true, show ((1 : Fin 3) = 0) = False by simp, if_false]
      rw [StateT.run_bind, jmp_run _ _ _ _ _ (by simp [e1])]
      exact ⟨_, rfl, by simp [pack, Function.update, e0, e1], by simp [pack, e1],
        by simp [pack]⟩
    · simp only [sharing, show ((2 : Fin 3) = 0) = False by simp, show ((2 : Fin 3) = 1) = False by simp, if_false]
      rw [StateT.run_bind, jmp_run _ _ _ _ _ (by simp [e1])]
      exact ⟨_, rfl, by simp [pack, Function.update, e2], by simp [pack, e1, e2],
        by simp [pack, e2]⟩
  obtain ⟨z, h1, h2⟩ := key
  exact ⟨z, h1, ⟨_, _, _, _, h2, by abel⟩, h2⟩

/-- **C87**: two parties share a value both know without communication, whichever two. -/
theorem c87_jointSharing {i j : Fin 3} (hij : i ≠ j) {msg : Fin 3 → R} {v : R} (hi : msg i = v) (hj : msg j = v) (r : R) :
    ∃ z, jointSharing i j msg r = some z ∧ Shares z v := by
  fin_cases i <;> fin_cases j <;> simp at hij hi hj
  · refine ⟨_, rfl, -v, 0, 0, r, ⟨?_, ?_, ?_⟩, by simp⟩ <;> simp [hi, hj]
  · refine ⟨_, rfl, 0, -v, 0, r, ⟨?_, ?_, ?_⟩, by simp⟩ <;> simp [hi, hj]
  · refine ⟨_, rfl, -v, 0, 0, r, ⟨?_, ?_, ?_⟩, by simp⟩ <;> simp [hi, hj]
  · refine ⟨_, rfl, 0, 0, v, r - v, ⟨?_, ?_, ?_⟩, by simp⟩ <;> simp [hi, hj]
  · refine ⟨_, rfl, 0, -v, 0, r, ⟨?_, ?_, ?_⟩, by simp⟩ <;> simp [hi, hj]
  · refine ⟨_, rfl, 0, 0, v, r - v, ⟨?_, ?_, ?_⟩, by simp⟩ <;> simp [hi, hj]

/-- a party cannot share with itself -/
theorem c87_jointSharing_self (i : Fin 3) (msg : Fin 3 → R) (r : R) : jointSharing i i msg r = none := by
  fin_cases i <;> rfl

theorem c87_io (v al1 al ga : R) : Shares (toShares v al1 al ga) v ∧ fromShares (toShares v al1 al ga) = v := by
  refine ⟨⟨al1, al - al1, v + al, ga, ⟨?_, ?_, ?_⟩, by abel⟩, ?_⟩
  · simp [toShares]; abel
  · simp [toShares]
  · simp [toShares]
  · simp only [toShares, fromShares, Matrix.cons_val_zero, Matrix.cons_val_one]
    abel

theorem c87_fromShares {x : Fin 3 → Shr R} {v : R} (h : Shares x v) : fromShares x = v := by
  obtain ⟨a1, a2, be, ga, l, rfl⟩ := h
  simp [fromShares, l.p0, l.p1]

/-! ## Linear kernels -/

theorem c87_p2a (p : R) : Shares (p2a p) p :=
  ⟨0, 0, p, 0, ⟨by simp [p2a], by simp [p2a], by simp [p2a]⟩, by simp⟩

theorem c87_negateA {x : Fin 3 → Shr R} {v : R} (h : Shares x v) : Shares (negateA x) (-v) := by
  obtain ⟨a1, a2, be, ga, l, rfl⟩ := h
  exact ⟨-a1, -a2, -be, -ga, ⟨by simp [negateA, l.p0]; abel, by simp [negateA, l.p1], by simp [negateA, l.p2]⟩, by abel⟩

theorem c87_addAP {x : Fin 3 → Shr R} {v : R} (h : Shares x v) (p : R) : Shares (addAP x p) (v + p) := by
  obtain ⟨a1, a2, be, ga, l, rfl⟩ := h
  exact ⟨a1, a2, be + p, ga, ⟨by simp [addAP, l.p0]; abel, by simp [addAP, l.p1], by simp [addAP, l.p2]⟩, by abel⟩

theorem c87_addAA {x y : Fin 3 → Shr R} {v w : R} (h : Shares x v) (k : Shares y w) : Shares (addAA x y) (v + w) := by
  obtain ⟨a1, a2, be, ga, l, rfl⟩ := h
  obtain ⟨c1, c2, de, gb, m, rfl⟩ := k
  exact ⟨a1 + c1, a2 + c2, be + de, ga + gb, ⟨by simp [addAA, l.p0, m.p0]; abel, by simp [addAA, l.p1, m.p1],
    by simp [addAA, l.p2, m.p2]⟩, by abel⟩

theorem c87_mulAP {x : Fin 3 → Shr R} {v : R} (h : Shares x v) (p : R) : Shares (mulAP x p) (v * p) := by
  obtain ⟨a1, a2, be, ga, l, rfl⟩ := h
  exact ⟨a1 * p, a2 * p, be * p, ga * p, ⟨by simp [mulAP, l.p0, add_mul], by simp [mulAP, l.p1], by simp [mulAP, l.p2]⟩,
    by rw [sub_mul, sub_mul]⟩
end Ring

theorem c87_matMulAP {k m n l : ℕ} {x : Fin 3 → Shr (Matrix (Fin m) (Fin n) (BitVec k))} {v : Matrix (Fin m) (Fin n) (BitVec k)}
    (h : Shares x v) (y : Matrix (Fin n) (Fin l) (BitVec k)) : Shares (matMulAP x y) (v * y) := by
  obtain ⟨a1, a2, be, ga, l, rfl⟩ := h
  exact ⟨a1 * y, a2 * y, be * y, ga * y, ⟨by simp [matMulAP, l.p0, Matrix.add_mul], by simp [matMulAP, l.p1],
    by simp [matMulAP, l.p2]⟩, by rw [Matrix.sub_mul, Matrix.sub_mul]⟩

theorem c87_lshiftA {k : ℕ} {x : Fin 3 → Shr (BitVec k)} {v : BitVec k} (h : Shares x v) {s : ℕ} (hs : s < k) :
    ∃ z, lshiftA x s = some z ∧ Shares z (v <<< s) := by
  obtain ⟨a1, a2, be, ga, l, rfl⟩ := h
  refine ⟨_, if_pos hs, a1 <<< s, a2 <<< s, be <<< s, ga <<< s, ⟨?_, ?_, ?_⟩, ?_⟩
  · simp only [l.p0, Shr.mk.injEq, true_and]
    simp only [shiftLeft_eq_mul, add_mul]
  · simp only [l.p1]
  · simp only [l.p2]
  · simp only [shiftLeft_eq_mul, sub_mul]

/-! ## Products -/

/-- reduction of a word to `k` bits -/
def red (m k : ℕ) (h : k ≤ m) : BitVec m →+* BitVec k where
  toFun v := v.setWidth k
  map_one' := by
    apply BitVec.eq_of_toNat_eq
    rw [BitVec.toNat_setWidth]
    rcases k with _ | k
    · simp [Nat.mod_one]
    · obtain ⟨m, rfl⟩ : ∃ n, m = n + 1 := ⟨m - 1, by omega⟩
      simp
  map_mul' a b := BitVec.setWidth_mul a b h
  map_zero' := by simp
  map_add' a b := BitVec.setWidth_add a b h

theorem mul_bilin {R : Type} [Ring R] : Bilin (fun a b : R => a * b) := ⟨fun _ _ _ => add_mul _ _ _, fun _ _ _ => mul_add _ _ _⟩
theorem mat_bilin {R : Type} [Ring R] {m n l : ℕ} :
    Bilin (fun (a : Matrix (Fin m) (Fin n) R) (b : Matrix (Fin n) (Fin l) R) => a * b) :=
  ⟨fun _ _ _ => Matrix.add_mul _ _ _, fun _ _ _ => Matrix.mul_add _ _ _⟩

theorem foldl_sum {R : Type} [AddCommMonoid R] (f : ℕ → R) (n : ℕ) :
    (List.range n).foldl (fun z i => z + f i) 0 = ∑ i ∈ Finset.range n, f i := by
  induction n with
  | zero => rfl
  | succ n ih => rw [List.range_succ, List.foldl_append, ih, Finset.sum_range_succ]; rfl

theorem dot_eq {k : ℕ} (n : ℕ) (x y : ℕ → BitVec k) (i : ℕ) : dot n x y i = ∑ j ∈ Finset.range n, x (i * n + j) * y (i * n + j) :=
  foldl_sum (fun j => x (i * n + j) * y (i * n + j)) n

theorem dot_bilin {k B : ℕ} (n : ℕ) : Bilin (fun (x y : ℕ → BitVec k) (i : Fin B) => dot n x y i) := by
  constructor
  · intro a b y
    funext i
    simp only [dot_eq, Pi.add_apply, add_mul, Finset.sum_add_distrib]
  · intro x a b
    funext i
    simp only [dot_eq, Pi.add_apply, mul_add, Finset.sum_add_distrib]

theorem mulProd_good (k : ℕ) (ch : BitVec k) : Good (mulProd k ch) where
  bil := mul_bilin
  bil' := mul_bilin
  sx a b := add_mul _ _ _
  sz a b := add_mul _ _ _
  sxz a b := by simp only [mulProd]; ring
  rx := (red (2 * k) k (by omega)).map_add
  ry := (red (2 * k) k (by omega)).map_add
  rz := (red (2 * k) k (by omega)).map_add
  rm := (red (2 * k) k (by omega)).map_mul

theorem matProd_good (k m n l : ℕ) (ch : BitVec k) : Good (matProd k m n l ch) where
  bil := mat_bilin
  bil' := mat_bilin
  sx a b := by ext i j; simp [matProd, add_mul]
  sz a b := by ext i j; simp [matProd, add_mul]
  sxz a b := by
    refine Matrix.ext fun i j => ?_
    simp only [matProd, Matrix.mul_apply, Matrix.map_apply, Finset.sum_mul]
    exact Finset.sum_congr rfl fun _ _ => by ring
  rx a b := Matrix.ext fun i j => (red (2 * k) k (by omega)).map_add _ _
  ry a b := Matrix.ext fun i j => (red (2 * k) k (by omega)).map_add _ _
  rz a b := Matrix.ext fun i j => (red (2 * k) k (by omega)).map_add _ _
  rm a b := Matrix.map_mul (f := red (2 * k) k (by omega))

theorem dotProd_good (k B n : ℕ) (ch : BitVec k) : Good (dotProd k B n ch) where
  bil := dot_bilin n
  bil' := dot_bilin n
  sx a b := by funext i; exact add_mul _ _ _
  sz a b := by funext i; exact add_mul _ _ _
  sxz a b := by
    funext i
    simp only [dotProd, dot_eq, Finset.sum_mul]
    exact Finset.sum_congr rfl fun _ _ => by ring
  rx a b := by funext i; exact (red (2 * k) k (by omega)).map_add _ _
  ry a b := by funext i; exact (red (2 * k) k (by omega)).map_add _ _
  rz a b := by funext i; exact (red (2 * k) k (by omega)).map_add _ _
  rm a b := by
    funext i
    simp only [dotProd, dot_eq]
    have := map_sum (red (2 * k) k (by omega)) (fun j => a (i * n + j) * b (i * n + j)) (Finset.range n)
    refine this.trans (Finset.sum_congr rfl fun j _ => ?_)
    exact (red (2 * k) k (by omega)).map_mul _ _

/-- the product kernel for any good product -/
theorem mul_ok {X Y Z X' Y' Z' : Type} [AddCommGroup X] [AddCommGroup Y] [AddCommGroup Z] [AddCommGroup X'] [AddCommGroup Y']
    [AddCommGroup Z'] [DecidableEq Z'] (H : HashFn) {P : Prod X Y Z X' Y' Z'} (G : Good P) {D : PreRand X' Y' Z'} (hD : PreOk D)
    {c : Bool} (hc : c = true)
    {x : Fin 3 → Shr X} {y : Fin 3 → Shr Y} {v : X} {w : Y} (hx : Shares x v) (hy : Shares y w) {r0 r1 : Fin 3 → Z}
    (hr : Paired r0 r1) (u : Z) (al : Bool) :
    ∃ z, (mulWith H P.mul (fun d e => if c then mulPre P D d e else none) x y r0 r1 u).run al = some (z, al) ∧
      Shares z (P.mul v w) ∧ Layout z (r0 1) (r0 0) (P.mul v w + r0 1 + r0 0) (r0 2) := by
  obtain ⟨z, h1, h2⟩ := mulWith_ok H G.bil (pre := fun d e => if c then mulPre P D d e else none)
    (fun x y v w hx hy => by rw [if_pos hc]; exact mulPre_ok G hD hx hy) hx hy hr u al
  exact ⟨z, h1, ⟨_, _, _, _, h2, by abel⟩, h2⟩

/-- **C87**: the product of two shared values, masked by the words just drawn; nothing is reported and the
check of the triple passes. -/
theorem c87_mulAA {k : ℕ} (hk : k = 32 ∨ k = 64) (H : HashFn) (ch : BitVec k)
    {D : PreRand (BitVec (2 * k)) (BitVec (2 * k)) (BitVec (2 * k))} (hD : PreOk D)
    {x y : Fin 3 → Shr (BitVec k)} {v w : BitVec k} (hx : Shares x v) (hy : Shares y w) {r0 r1 : Fin 3 → BitVec k}
    (hr : Paired r0 r1) (u : BitVec k) (al : Bool) :
    ∃ z, (mulAA H ch D x y r0 r1 u).run al = some (z, al) ∧ Shares z (v * w) ∧
      Layout z (r0 1) (r0 0) (v * w + r0 1 + r0 0) (r0 2) :=
  mul_ok H (mulProd_good k ch) hD (by rcases hk with rfl | rfl <;> rfl) hx hy hr u al

/-- **C87**: the same for matrices. -/
theorem c87_matMulAA {k m n l : ℕ} (hk : k = 32 ∨ k = 64) (H : HashFn) (ch : BitVec k)
    {D : PreRand (Matrix (Fin m) (Fin n) (BitVec (2 * k))) (Matrix (Fin n) (Fin l) (BitVec (2 * k)))
      (Matrix (Fin m) (Fin l) (BitVec (2 * k)))} (hD : PreOk D)
    {x : Fin 3 → Shr (Matrix (Fin m) (Fin n) (BitVec k))} {y : Fin 3 → Shr (Matrix (Fin n) (Fin l) (BitVec k))}
    {v : Matrix (Fin m) (Fin n) (BitVec k)} {w : Matrix (Fin n) (Fin l) (BitVec k)} (hx : Shares x v) (hy : Shares y w)
    {r0 r1 : Fin 3 → Matrix (Fin m) (Fin l) (BitVec k)} (hr : Paired r0 r1) (u : Matrix (Fin m) (Fin l) (BitVec k)) (al : Bool) :
    ∃ z, (matMulAA H ch D x y r0 r1 u).run al = some (z, al) ∧ Shares z (v * w) ∧
      Layout z (r0 1) (r0 0) (v * w + r0 1 + r0 0) (r0 2) :=
  mul_ok H (matProd_good k m n l ch) hD (by rcases hk with rfl | rfl <;> rfl) hx hy hr u al

/-- the draws of a batch of inner products come from the pairwise streams -/
structure SwDotOk {k B : ℕ} (D : DotRand k B) : Prop where
  pre : PreOk D.pre
  r : Paired D.r0 D.r1

/-- **C87**: and for a batch of inner products, stored one after the other. -/
theorem c87_dotAA {k B : ℕ} (hk : k = 32 ∨ k = 64) (H : HashFn) (n : ℕ) {D : DotRand k B} (hD : SwDotOk D)
    {x y : Fin 3 → Shr (ℕ → BitVec k)} {v w : ℕ → BitVec k} (hx : Shares x v) (hy : Shares y w) (u : Fin B → BitVec k) (al : Bool) :
    ∃ z, (dotAA H n D x y u).run al = some (z, al) ∧
      Shares z (fun i => ∑ j ∈ Finset.range n, v (i * n + j) * w (i * n + j)) := by
  obtain ⟨z, h1, h2, -⟩ := mul_ok H (dotProd_good k B n D.ch) hD.pre (c := fieldOk k) (by rcases hk with rfl | rfl <;> rfl) hx hy hD.r u al
  refine ⟨z, h1, ?_⟩
  have : (fun i : Fin B => ∑ j ∈ Finset.range n, v (i * n + j) * w (i * n + j)) = (dotProd k B n D.ch).mul v w :=
    funext fun i => (dot_eq n v w i).symm
  rw [this]
  exact h2

/-- no product exists over other fields: the kernel throws -/
theorem c87_mulAA_field {k : ℕ} (hk : k ≠ 32 ∧ k ≠ 64) (H : HashFn) (ch : BitVec k)
    (D : PreRand (BitVec (2 * k)) (BitVec (2 * k)) (BitVec (2 * k)))
    (x y : Fin 3 → Shr (BitVec k)) (r0 r1 : Fin 3 → BitVec k) (u : BitVec k) (al : Bool) :
    (mulAA H ch D x y r0 r1 u).run al = none := by
  have : fieldOk k = false := by simp [fieldOk, hk.1, hk.2]
  simp [mulAA, mulWith, this, StateT.run_bind]

/-! ## A wrong triple -/

/-- multiplication by a difference of two short words is injective on words that are not zero modulo
`2 ^ k` -/
theorem short_mul {k : ℕ} {a b : BitVec k} (hab : a ≠ b) {d : BitVec (2 * k)}
    (h : d * a.setWidth (2 * k) = d * b.setWidth (2 * k)) : d.setWidth k = 0 := by
  wlog hlt : b.toNat < a.toNat generalizing a b
  · exact this (Ne.symm hab) h.symm (by have : a.toNat ≠ b.toNat := fun e => hab (BitVec.eq_of_toNat_eq e); omega)
  have ha := a.isLt
  have e : (2 : ℕ) ^ (2 * k) = 2 ^ k * 2 ^ k := by rw [← pow_add]; congr 1; omega
  have hk1 : 0 < 2 ^ k := by positivity
  have hle : 2 ^ k ≤ 2 ^ (2 * k) := by rw [e]; exact Nat.le_mul_of_pos_left _ hk1
  have h' := congrArg BitVec.toNat h
  rw [BitVec.toNat_mul, BitVec.toNat_mul, BitVec.toNat_setWidth, BitVec.toNat_setWidth,
    Nat.mod_eq_of_lt (lt_of_lt_of_le ha hle), Nat.mod_eq_of_lt (lt_of_lt_of_le b.isLt hle)] at h'
  have hd : 2 ^ (2 * k) ∣ d.toNat * (a.toNat - b.toNat) := by
    rw [Nat.mul_sub]
    exact (Nat.modEq_iff_dvd' (Nat.mul_le_mul_left _ hlt.le)).1 h'.symm
  have key : 2 ^ k ∣ d.toNat := by
    by_contra hn
    obtain ⟨i, hi, hg⟩ := (Nat.dvd_prime_pow Nat.prime_two).1 (Nat.gcd_dvd_right d.toNat (2 ^ (2 * k)))
    -- the power of two in `d`
    have hik : i < k := by
      by_contra hik
      exact hn ((pow_dvd_pow 2 (not_lt.1 hik)).trans (hg ▸ Nat.gcd_dvd_left _ _))
    have h2 : 2 ^ (2 * k) ∣ 2 ^ i * (a.toNat - b.toNat) := by
      have := Nat.dvd_gcd hd (Dvd.intro_left (a.toNat - b.toNat) rfl : 2 ^ (2 * k) ∣ (a.toNat - b.toNat) * 2 ^ (2 * k))
      rw [mul_comm (a.toNat - b.toNat) (2 ^ (2 * k)), Nat.gcd_mul_right, hg] at this
      exact this
    have h3 : 2 ^ (2 * k) ≤ 2 ^ i * (a.toNat - b.toNat) := Nat.le_of_dvd (Nat.mul_pos (by positivity) (by omega)) h2
    have h4 : 2 ^ i ≤ 2 ^ k := Nat.pow_le_pow_right (by norm_num) hik.le
    have h5 : 2 ^ i * (a.toNat - b.toNat) < 2 ^ k * 2 ^ k := by
      calc 2 ^ i * (a.toNat - b.toNat) ≤ 2 ^ k * (a.toNat - b.toNat) := Nat.mul_le_mul_right _ h4
        _ < 2 ^ k * 2 ^ k := Nat.mul_lt_mul_of_pos_left (by omega) hk1
    omega
  apply BitVec.eq_of_toNat_eq
  rw [BitVec.toNat_setWidth, Nat.mod_eq_zero_of_dvd key]
  rfl

/-- **C87**: whatever a party adds to the messages of the two products the triple is built from, before the
challenge is drawn, at most one challenge lets a wrong product through. -/
theorem c87_sacrifice {k : ℕ} {D : PreRand (BitVec (2 * k)) (BitVec (2 * k)) (BitVec (2 * k))} (hA : Paired D.a0 D.a1)
    (hT : Paired D.t0 D.t1) (hB : Paired D.b0 D.b1) {x y : Rss (BitVec k)} {v w : BitVec k} (hx : Rep x v) (hy : Rep y w) :
    ∃ bad : BitVec k, ∀ ch, ch ≠ bad → ∀ z, mulPre (mulProd k ch) D x y = some z → Rep z (v * w) := by
  have h := fun ch => mulPre_any (mulProd_good k ch) hA hT hB hx hy
  set δ := excess D.c0 D.c1
  set ε := excess D.d0 D.d1
  have acc : ∀ ch z, mulPre (mulProd k ch) D x y = some z → δ * ch.setWidth (2 * k) = ε ∧ Rep z (v * w + δ.setWidth k) := by
    intro ch z hz
    have h' := h ch
    split_ifs at h' with hc
    · obtain ⟨z', e, r⟩ := h'
      rw [hz] at e
      cases e
      exact ⟨hc, r⟩
    · rw [hz] at h'
      cases h'
  by_cases hex : ∃ ch : BitVec k, δ * ch.setWidth (2 * k) = ε
  · obtain ⟨bad, hb⟩ := hex
    refine ⟨bad, fun ch hne z hz => ?_⟩
    obtain ⟨e, r⟩ := acc ch z hz
    rw [short_mul hne (e.trans hb.symm)] at r
    simpa using r
  · refine ⟨0, fun ch _ z hz => absurd ⟨ch, (acc ch z hz).1⟩ hex⟩

/-- the same for a product of matrices, checked with a single challenge -/
theorem c87_sacrifice_mat {k m n l : ℕ}
    {D : PreRand (Matrix (Fin m) (Fin n) (BitVec (2 * k))) (Matrix (Fin n) (Fin l) (BitVec (2 * k)))
      (Matrix (Fin m) (Fin l) (BitVec (2 * k)))} (hA : Paired D.a0 D.a1)
    (hT : Paired D.t0 D.t1) (hB : Paired D.b0 D.b1) {x : Rss (Matrix (Fin m) (Fin n) (BitVec k))}
    {y : Rss (Matrix (Fin n) (Fin l) (BitVec k))} {v : Matrix (Fin m) (Fin n) (BitVec k)} {w : Matrix (Fin n) (Fin l) (BitVec k)}
    (hx : Rep x v) (hy : Rep y w) :
    ∃ bad : BitVec k, ∀ ch, ch ≠ bad → ∀ z, mulPre (matProd k m n l ch) D x y = some z → Rep z (v * w) := by
  have h := fun ch => mulPre_any (matProd_good k m n l ch) hA hT hB hx hy
  set δ := excess D.c0 D.c1
  set ε := excess D.d0 D.d1
  have acc : ∀ ch z, mulPre (matProd k m n l ch) D x y = some z →
      δ.map (· * ch.setWidth (2 * k)) = ε ∧ Rep z (v * w + δ.map (·.setWidth k)) := by
    intro ch z hz
    have h' := h ch
    split_ifs at h' with hc
    · obtain ⟨z', e, r⟩ := h'
      rw [hz] at e
      cases e
      exact ⟨hc, r⟩
    · rw [hz] at h'
      cases h'
  by_cases hex : ∃ ch : BitVec k, δ.map (· * ch.setWidth (2 * k)) = ε
  · obtain ⟨bad, hb⟩ := hex
    refine ⟨bad, fun ch hne z hz => ?_⟩
    obtain ⟨e, r⟩ := acc ch z hz
    have : δ.map (·.setWidth k) = 0 := by
      refine Matrix.ext fun i j => ?_
      have := congrFun (congrFun (e.trans hb.symm) i) j
      exact short_mul hne this
    rw [this, add_zero] at r
    exact r
  · refine ⟨0, fun ch _ z hz => absurd ⟨ch, (acc ch z hz).1⟩ hex⟩

/-! ## Random shares -/

/-- **C87**: a random share opens to the same value at every party … -/
theorem c87_randA_open {R : Type} [Ring R] (H : HashFn) {r0 r1 r2 r3 : Fin 3 → R} (h : Paired r0 r1) (u : R) (al : Bool) :
    ∃ z al', (randA H r0 r1 r2 r3 u).run al = some (z, al') ∧ ∀ al'', (a2p H z u).run al'' = some (fun _ => r0 2 - r0 1 - r0 0, al'') := by
  obtain ⟨e0, e1, e2⟩ := Paired.eqs h
  refine ⟨_, _, rfl, fun al'' => ?_⟩
  unfold a2p
  rw [StateT.run_bind, jmp_run _ _ _ _ _ (by simp [beOf, pack, e1])]
  simp only [Option.bind_eq_bind, Option.bind_some]
  rw [StateT.run_bind, jmp_run _ _ _ _ _ (by simp [al1Of, pack, e0])]
  simp only [Option.bind_eq_bind, Option.bind_some]
  rw [StateT.run_bind, jmp_run _ _ _ _ _ (by simp [al2Of, pack, e2])]
  simp only [Option.bind_eq_bind, Option.bind_some]
  refine congrArg some (Prod.ext ?_ rfl)
  funext i
  fin_cases i <;> simp [beOf, al1Of, al2Of, Function.update, pack, e0, e1, e2]

/-- **C87**: … but it is a share only if two words of two different streams happen to agree: `P1` takes its `γ`
from the stream it has in common with `P2`, `P2` from the one it has in common with `P0`.  Otherwise the
digests differ too (unless they collide) and the three parties log an inconsistency although all of them
follow the protocol. -/
theorem c87_randA_inconsistent {R : Type} [Ring R] (H : HashFn) {r0 r1 r2 r3 : Fin 3 → R} (h : Paired r0 r1) (h' : Paired r2 r3)
    (u : R) (al : Bool) :
    ∃ z, (randA H r0 r1 r2 r3 u).run al = some (z, al || decide (H R (r0 2 + r2 2) ≠ H R (r0 2 + r2 0))) ∧
      ((∃ v, Shares z v) ↔ r2 2 = r2 0) := by
  obtain ⟨e0, e1, e2⟩ := Paired.eqs h
  obtain ⟨g0, g1, g2⟩ := Paired.eqs h'
  refine ⟨pack ![r1 0, r0 1, u] ![r0 0, u, r1 2] ![u, r1 1, r0 2] ![u, r3 1, r3 2]
    (Function.update (fun i => (![u, r1 1, r0 2] : Fin 3 → R) i + (![u, r3 1, r3 2] : Fin 3 → R) i) 0 (r1 1 + r3 1)), ?_, ?_⟩
  · rw [← e1, ← g1, ← g2]
    simp [randA, jmp, StateT.run, bind, StateT.bind, pure, StateT.pure, ← e1]
    exact congrArg (al || ·) (Bool.eq_iff_iff.2 (decide_eq_true_iff.trans (by simp)))
  · constructor
    · rintro ⟨v, a1, a2, be, ga, l, -⟩
      have p1 := congrArg Shr.c l.p1
      have p2 := congrArg Shr.c l.p2
      simp [pack] at p1 p2
      rw [← g1, ← g2, p1, p2]
    · intro e
      refine ⟨r0 2 - r0 1 - r0 0, r0 1, r0 0, r0 2, r2 2, ⟨?_, ?_, ?_⟩, rfl⟩
      · simp [pack, Function.update, e0, e1, g1]
      · simp [pack, e1, g1]
      · simp [pack, e2, g2, e]

/-- paired words for one product -/
def preEx : PreRand (BitVec (2 * 32)) (BitVec (2 * 32)) (BitVec (2 * 32)) :=
  ⟨![1, 2, 3], ![2, 3, 1], ![4, 5, 6], ![5, 6, 4], ![7, 8, 9], ![8, 9, 7], ![10, 11, 12], ![11, 12, 10], ![13, 14, 15], ![14, 15, 13]⟩

theorem preEx_ok : PreOk preEx := by
  refine ⟨?_, ?_, ?_, ?_, ?_⟩ <;> intro i <;> fin_cases i <;> rfl

example : ∃ z, (mulAA (fun _ _ => 0) 77 preEx (toShares (1000#32) 1 2 3) (toShares (-7#32) 4 5 6) ![21, 22, 23] ![22, 23, 21] 0).run false =
    some (z, false) ∧ fromShares z = -7000#32 := by
  obtain ⟨z, h1, h2, -⟩ := c87_mulAA (k := 32) (Or.inl rfl) (fun _ _ => 0) 77 preEx_ok (c87_io (1000#32) 1 2 3).1 (c87_io (-7#32) 4 5 6).1
    (r0 := ![21, 22, 23]) (r1 := ![22, 23, 21]) (by intro i; fin_cases i <;> rfl) 0 false
  exact ⟨z, h1, (c87_fromShares h2).trans (by decide +kernel)⟩

/-- a product whose first triple is off by one, as a party that adds to its message would have it: the check
passes for the challenge the second error was chosen for, and for no other -/
def preBad : PreRand (BitVec (2 * 32)) (BitVec (2 * 32)) (BitVec (2 * 32)) :=
  { preEx with c0 := ![11, 11, 12], d0 := ![90, 14, 15] }

example : (mulPre (mulProd 32 77) preBad ![(1, 2), (2, 3), (3, 1)] ![(4, 5), (5, 6), (6, 4)]).isSome = true ∧
    mulPre (mulProd 32 78) preBad ![(1, 2), (2, 3), (3, 1)] ![(4, 5), (5, 6), (6, 4)] = none ∧
    (mulPre (mulProd 32 77) preBad ![(1, 2), (2, 3), (3, 1)] ![(4, 5), (5, 6), (6, 4)]).map (fun z => rssOpen z 0) = some 91#32 ∧
    (1 + 2 + 3) * (4 + 5 + 6) = 90#32 := by decide +kernel

/-- **C87**: what comes of such a value: a product with ten opens to one number at two of the parties and to another at
the third, although everybody is honest. -/
theorem c87_randA_mul_wrong :
    (do
      let z ← randA (R := BitVec 32) (fun _ _ => 0) ![1, 2, 10] ![2, 10, 1] ![4, 5, 6] ![5, 6, 4] 0
      let o ← a2p (fun _ _ => 0) z 0
      let w ← mulAA (fun _ _ => 0) 77 preEx z (toShares (10#32) 1 2 3) ![21, 22, 23] ![22, 23, 21] 0
      let p ← a2p (fun _ _ => 0) w 0
      return ([o 0, o 1, o 2], [p 0, p 1, p 2]) : M (List (BitVec 32) × List (BitVec 32))).run false =
      some (([7, 7, 7], [70, 70, 46]), false) := by decide +kernel

/-! ## Joint message passing -/

open JMP in
/-- **C87**: among honest parties holding the same message the receiver gets it and nobody is named. -/
theorem c87_jmp_honest {α D : Type} [DecidableEq D] (H H0 : α → D) (A : Adv α D) {v : Role → α} (h : v .send = v .hash) :
    JMP.run H H0 none A v = some (fun r => ⟨if r = .recv then v .send else v r, none⟩) := by
  simp only [JMP.run, reduceCtorEq, if_false, h]
  simp
  funext r
  cases r <;> simp [h]

open JMP in
/-- what `jmp` abbreviates: with three parties that follow the code the receiver always ends with what the sender
sent, and an alarm is raised exactly if the two digests differ -/
theorem c87_jmp_model {α D : Type} [DecidableEq D] (H H0 : α → D) (A : Adv α D) (v : Role → α) :
    ∃ out, JMP.run H H0 none A v = some out ∧ (out .recv).msg = v .send ∧ (out .send).msg = v .send ∧ (out .hash).msg = v .hash ∧
      ∀ r, (out r).ttp ≠ none ↔ H (v .send) ≠ H (v .hash) := by
  by_cases e : H (v .send) = H (v .hash)
  · exact ⟨_, by simp [JMP.run, e]; rfl, rfl, rfl, rfl, fun r => by simp [e]⟩
  · exact ⟨_, by simp [JMP.run, e]; rfl, rfl, rfl, rfl, fun r => by simp [e]⟩

open JMP in
/-- **C87**: a tampered message does not go unnoticed: both honest parties name a party, unless one of
them waits for ever. -/
theorem c87_jmp_detect {α D : Type} [DecidableEq D] {H H0 : α → D} (hH : Function.Injective H) (A : Adv α D)
    {v : Role → α} (hbad : A.msg ≠ v .hash) {out : Role → Res α}
    (h : JMP.run H H0 (some .send) A v = some out) : (out .hash).ttp ≠ none ∧ (out .recv).ttp ≠ none := by
  have : H A.msg ≠ H (v .hash) := fun e => hbad (hH e)
  simp [JMP.run, this] at h
  subst h
  simp

open JMP in
/-- **C87**: and whatever a single corrupted party does, the party an honest one names is honest. -/
theorem c87_jmp_ttp {α D : Type} [DecidableEq D] {H H0 : α → D} (hH0 : Function.Injective H0) (bad : Role) (A : Adv α D)
    {v : Role → α} (hv : v .send = v .hash) {out : Role → Res α} (h : JMP.run H H0 (some bad) A v = some out)
    {r : Role} (hr : r ≠ bad) : (out r).ttp ≠ some bad := by
  cases bad
  · by_cases e : H A.msg = H (v .hash)
    · cases hb : A.bit .hash
      · simp [JMP.run, e, hb] at h
        subst h
        simp
      · simp [JMP.run, e, hb] at h
    · have e' : A.msg ≠ v .hash := fun x => e (by rw [x])
      simp [JMP.run, e] at h
      subst h
      simp only [ne_eq, Option.some.injEq, verdict]
      have e2 : H0 A.msg ≠ H0 (v .hash) := fun x => e' (hH0 x)
      split_ifs with h1 h2 <;> simp_all
  · by_cases e : H (v .hash) = A.digest
    · cases hb : A.bit .send
      · simp [JMP.run, hv, e, hb] at h
        subst h
        simp
      · simp [JMP.run, hv, e, hb] at h
    · simp [JMP.run, hv, e] at h
      subst h
      simp only [ne_eq, Option.some.injEq, verdict]
      split_ifs with h1 h2 <;> simp_all
  · cases hb : A.bit .send <;> cases hb' : A.bit .hash <;> simp [JMP.run, hb, hb'] at h <;> subst h <;>
      simp [verdict, hv] <;> split_ifs <;> simp

open JMP in
/-- **C87**: but nothing else happens: the receiver goes on with the tampered message. -/
theorem c87_jmp_continues {α D : Type} [DecidableEq D] {H H0 : α → D} (hH : Function.Injective H) (A : Adv α D)
    {v : Role → α} (hbad : A.msg ≠ v .hash) :
    ∃ out, JMP.run H H0 (some .send) A v = some out ∧ (out .recv).msg = A.msg := by
  have : H A.msg ≠ H (v .hash) := fun e => hbad (hH e)
  exact ⟨_, by simp [JMP.run, this]; rfl, rfl⟩

open JMP in
/-- **C87**: a corrupted sender that claims an inconsistency which the receiver has not seen leaves the second
sender waiting in the broadcast for a receiver that has gone on. -/
theorem c87_jmp_hang {α D : Type} [DecidableEq D] (H H0 : α → D) {A : Adv α D} {v : Role → α} (hm : A.msg = v .hash)
    (hb : A.bit .hash = true) : JMP.run H H0 (some .send) A v = none := by
  simp [JMP.run, hm, hb]

open JMP in
/-- **C87**: the broadcast is made of separate messages, so a corrupted sender can make the two honest parties
trust different parties. -/
theorem c87_jmp_split {α D : Type} [DecidableEq D] {H H0 : α → D} (hH : Function.Injective H) (hH0 : Function.Injective H0)
    {A : Adv α D} {v : Role → α} (hbad : A.msg ≠ v .hash) (h1 : A.bcast .hash = H0 (v .hash)) (h2 : A.bcast .recv = H0 A.msg) :
    ∃ out, JMP.run H H0 (some .send) A v = some out ∧ (out .hash).ttp = some .hash ∧ (out .recv).ttp = some .recv := by
  have e : H A.msg ≠ H (v .hash) := fun e => hbad (hH e)
  have e0 : H0 A.msg ≠ H0 (v .hash) := fun e => hbad (hH0 e)
  refine ⟨_, by simp [JMP.run, e]; rfl, ?_, ?_⟩
  · simp [verdict, h1, e0.symm]
  · simp [verdict, h2, e0]

open JMP in
/-- a sender that tampers: the others notice, and trust the wrong party only if the digests are split -/
example : (JMP.run (fun x : ℕ => x) (fun x => x) (some .send) ⟨8, 0, fun _ => false, fun r => if r = .hash then 7 else 8⟩ (fun _ => 7)).map
      (fun o => ((o .hash), (o .recv))) = some (⟨7, some .hash⟩, ⟨8, some .recv⟩) ∧
    (JMP.run (fun x : ℕ => x) (fun x => x) (some .send) ⟨7, 0, fun _ => true, fun _ => 0⟩ (fun _ => 7)).isNone = true ∧
    (JMP.run (fun x : ℕ => x) (fun x => x) (some .recv) ⟨7, 0, fun _ => true, fun _ => 0⟩ (fun _ => 7)).map
      (fun o => (o .send, o .hash)) = some (⟨7, some .hash⟩, ⟨7, some .hash⟩) := by decide +kernel

end Spu.Props.Swift

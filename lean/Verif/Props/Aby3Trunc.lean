import Verif.Props.Aby3
import Verif.Props.Semi2kProg

set_option autoImplicit false

/-!
# C28: error of the replicated truncations; C47: the roles drawn by the public pivot
-/

namespace Spu.Props
open Spu.Model Spu.Model.Circ Spu.Model.Aby3 Spu.Model.Aby3.Env Spu.Model.Prg Spu.Spec Spu.Lemmas

variable {σ : Type} {Inv : σ → Prop} {E : Env σ} {w : ℕ}

/-! ### Local truncation -/

/-- C28: local truncation keeps the replication invariant; unless the component of party 0 wraps against
the secret, the opened result is the signed secret divided by `2^bits`, rounded down or up. -/
theorem c28_truncA (hE : EnvOk3 E Inv) {x : Sh (BitVec w)} {X : BitVec w} (hx : Opens x X) {bits : ℕ}
    (hb : bits < w) (h : NoWrap X (x.fst 0)) :
    Ok Inv (truncA E x bits) (fun z => ∃ Z, Opens z Z ∧
      (Z.toInt = X.toInt / 2 ^ bits ∨ Z.toInt = -(-X.toInt / 2 ^ bits))) := by
  refine Ok.enforce (by simpa using hb) (Ok.bind (both_ok hE w) fun r hr => Ok.pure ?_)
  obtain ⟨x0, x1, x2⟩ := repl3.1 hx.1
  have hX : total ![x.fst 0, x.fst 1 + x.fst 2] = X := by
    rw [← hx.2, total3, total, Fin.sum_univ_two]; simp [add_assoc]
  have hc := c23_two_party (w := w) (by omega) ![x.fst 0, x.fst 1 + x.fst 2] bits (by rw [hX]; exact h)
  rw [hX] at hc
  refine ⟨_, ⟨repl3.2 ⟨?_, ?_, ?_⟩, ?_⟩, hc⟩
  · simp
  · simp [hr 1]
  · simp [x2]
  · rw [total3, total, Fin.sum_univ_two]
    simp [Semi2k.truncA2, x1, hr 1, show (1 : Fin 3) + 1 = 2 from rfl]
    ring

/-! ### Roles -/

/-- the pivot gives three consecutive roles unless the 64-bit additions wrap -/
theorem c47_roles_partial {pv : Fin 3 → BitVec 64} (he : ∀ i j, pv i = pv j) (hp : (pv 0).toNat + 2 < 2 ^ 64) :
    ∃ P, roles pv = some (P, P + 1, P + 2) := by
  refine ⟨Fin.ofNat 3 ((pv 0).toNat % 3), ?_⟩
  have h1 : (pv 0 + 1).toNat = (pv 0).toNat + 1 := by
    rw [BitVec.toNat_add, show (1 : BitVec 64).toNat = 1 from rfl]; omega
  have h2 : (pv 0 + 2).toNat = (pv 0).toNat + 2 := by
    rw [BitVec.toNat_add, show (2 : BitVec 64).toNat = 2 from rfl]; omega
  have e1 : Fin.ofNat 3 ((pv 0 + 1).toNat % 3) = Fin.ofNat 3 ((pv 0).toNat % 3) + 1 := by
    rw [h1]; apply Fin.ext; simp [Fin.val_add, Fin.ofNat]
  have e2 : Fin.ofNat 3 ((pv 0 + 2).toNat % 3) = Fin.ofNat 3 ((pv 0).toNat % 3) + 2 := by
    rw [h2]; apply Fin.ext; simp [Fin.val_add, Fin.ofNat]
  unfold roles
  simp only [e1, e2]
  rw [if_pos]
  refine ⟨he _ _, he _ _, ?_⟩
  generalize Fin.ofNat 3 ((pv 0).toNat % 3) = P
  revert P; decide

example : roles (fun _ => 1000#64) = some (1, 2, 0) := by decide +kernel

/-- C47: for the two largest pivots two roles fall on one party -/
theorem c47_roles_collide : roles (fun _ => BitVec.ofNat 64 (2 ^ 64 - 1)) = none ∧
    roles (fun _ => BitVec.ofNat 64 (2 ^ 64 - 2)) = none := by
  constructor <;> decide +kernel

/-- roles that do come out are consecutive -/
theorem roles_some {pv : Fin 3 → BitVec 64} {ρ : Fin 3 × Fin 3 × Fin 3} (h : roles pv = some ρ) :
    ρ = (ρ.1, ρ.1 + 1, ρ.1 + 2) := by
  have he : pv 1 = pv 0 ∧ pv 2 = pv 0 := by
    unfold roles at h
    simp only at h
    split_ifs at h with hc
    exact ⟨hc.1, hc.2.1⟩
  have hpv : pv = fun _ => pv 0 := by
    funext i; rcases fin3_cases i with rfl | rfl | rfl
    · rfl
    · exact he.1
    · exact he.2
  by_cases hp : (pv 0).toNat + 2 < 2 ^ 64
  · obtain ⟨P, hP⟩ := c47_roles_partial (fun i j => by rw [hpv]) hp
    rw [hP, Option.some_inj] at h
    subst h; rfl
  · have hlt := (pv 0).isLt
    have : pv 0 = BitVec.ofNat 64 (2 ^ 64 - 1) ∨ pv 0 = BitVec.ofNat 64 (2 ^ 64 - 2) := by
      by_cases h1 : (pv 0).toNat = 2 ^ 64 - 1
      · left; apply BitVec.eq_of_toNat_eq; rw [h1]; rfl
      · right; apply BitVec.eq_of_toNat_eq
        rw [show (BitVec.ofNat 64 (2 ^ 64 - 2)).toNat = 2 ^ 64 - 2 from rfl]; omega
    rcases this with e | e
    · rw [hpv, e, c47_roles_collide.1] at h; cases h
    · rw [hpv, e, c47_roles_collide.2] at h; cases h

/-- the pivot is not one of the two for which the roles collide -/
def PivotOk (E : Env σ) (Inv : σ → Prop) : Prop :=
  Ok Inv E.publ (fun p => (∀ i j, p i = p j) ∧ (p 0).toNat + 2 < 2 ^ 64)

theorem pivoted_ok {α : Type} (hp : PivotOk E Inv) {f : Fin 3 → Fin 3 → Fin 3 → Spu.Model.Circ.M σ α} {Q : α → Prop}
    (h : ∀ P, Ok Inv (f P (P + 1) (P + 2)) Q) : Ok Inv (pivoted E f) Q := by
  refine Ok.bind hp fun pv ⟨he, hlt⟩ => ?_
  obtain ⟨P, hP⟩ := c47_roles_partial he hlt
  exact ok_lift hP (h P)

theorem pivoted_part {α : Type} (hE : EnvOk3 E Inv) {f : Fin 3 → Fin 3 → Fin 3 → Spu.Model.Circ.M σ α} {Q : α → Prop}
    (h : ∀ P, Ok Inv (f P (P + 1) (P + 2)) Q) : Part Inv (pivoted E f) Q := by
  refine Part.bind (Part.of_ok hE.publ) fun pv _ => Part.opt fun ρ hρ => ?_
  rw [roles_some hρ]
  exact Part.of_ok (h ρ.1)

/-- C47: with one of the two colliding pivots no kernel with rotating roles finishes -/
theorem c47_pivot_wrap {α : Type} (f : Fin 3 → Fin 3 → Fin 3 → Spu.Model.Circ.M σ α) {s s' : σ} {p : BitVec 64}
    (hp : 2 ^ 64 - 2 ≤ p.toNat) (h : E.publ s = some (fun _ => p, s')) : pivoted E f s = none := by
  have hlt := p.isLt
  have hr : roles (fun _ => p) = none := by
    by_cases h1 : p.toNat = 2 ^ 64 - 1
    · rw [show p = BitVec.ofNat 64 (2 ^ 64 - 1) from BitVec.eq_of_toNat_eq (by rw [h1]; rfl)]
      exact c47_roles_collide.1
    · rw [show p = BitVec.ofNat 64 (2 ^ 64 - 2) from BitVec.eq_of_toNat_eq (by
        rw [show (BitVec.ofNat 64 (2 ^ 64 - 2)).toNat = 2 ^ 64 - 2 from rfl]; omega)]
      exact c47_roles_collide.2
  show (E.publ >>= _) s = none
  simp only [Bind.bind, StateT.bind, h, Option.bind_some, hr]
  rfl

/-! ### Building blocks -/

section blocks
variable {P : Fin 3}

theorem role_ne (P : Fin 3) : P + 1 ≠ P ∧ P + 2 ≠ P ∧ P + 2 ≠ P + 1 ∧ P + 1 + 1 = P + 2 ∧ P + 2 + 1 = P := by
  revert P; decide

theorem reshare_ok (hE : EnvOk3 E Inv) (N : ℕ) (P : Fin 3) (y0 y1 : Arr w) :
    Ok Inv (reshare E N P (P + 1) (P + 2) y0 y1) (fun z => ∀ j, Opens (elem z j) (y0 j + y1 j)) := by
  obtain ⟨n10, n20, n21, h12, h20⟩ := role_ne P
  refine Ok.bind (hE.prss _ _ _ (fun i => by revert i P; decide)) fun r hr => Ok.pure fun j => ?_
  have e1 : two r 0 (P + 1) = one r 0 (P + 2) := by rw [two_eq_one hr, h12]
  have e2 : two r 0 (P + 2) = one r 0 P := by rw [two_eq_one hr, h20]
  constructor
  · intro i
    rcases fin3_role P i with rfl | rfl | rfl
    · simp only [elem, if_pos, n10, if_false]; ring
    · simp only [elem, if_pos, n10, n20, n21, if_false, h12, e1]
    · simp only [elem, if_pos, n20, n21, if_false, h20, e2]
  · rw [total_role P]
    simp only [elem, if_pos, n10, n20, n21, if_false, e1]
    ring

theorem privateMul_ok {v : ℕ} (hE : EnvOk3 E Inv) (N : ℕ) (P : Fin 3) (x0 x1 : Arr v) :
    Ok Inv (privateMul E N P (P + 1) (P + 2) x0 x1) (fun z => ∀ j, z.1 j + z.2 j = x0 j * x1 j) := by
  obtain ⟨n10, n20, n21, h12, h20⟩ := role_ne P
  refine Ok.bind (hE.prss _ _ _ (fun i => by revert i P; decide)) fun r hr => Ok.pure fun j => ?_
  have e1 : two r 0 (P + 1) = one r 0 (P + 2) := by rw [two_eq_one hr, h12]
  have e2 : two r 0 (P + 2) = one r 0 P := by rw [two_eq_one hr, h20]
  simp only [e1, e2]
  ring

end blocks

/-- Truncating two unsigned shares and correcting by the shares `m0`, `m1` of the wrap count `M` gives the
quotient of the value behind the shares, less the carry of the low bits. -/
theorem wrap_trunc {v : ℕ} (x0 x1 : BitVec w) (m0 m1 : BitVec v) (X M : ℤ) {bits : ℕ} (hb : bits ≤ w) (hv : bits ≤ v)
    (hM : (x0.toNat : ℤ) + x1.toNat = X + M * 2 ^ w) (hm : m0 + m1 = BitVec.ofInt v M) :
    (x0 >>> bits) - m0.setWidth w * BitVec.ofInt w (2 ^ (w - bits)) +
      ((x1 >>> bits) - m1.setWidth w * BitVec.ofInt w (2 ^ (w - bits))) =
    BitVec.ofInt w (X / 2 ^ bits - (if x0.toNat % 2 ^ bits + x1.toNat % 2 ^ bits ≥ 2 ^ bits then 1 else 0)) := by
  have hp : (0 : ℤ) < 2 ^ bits := by positivity
  obtain ⟨T, hT⟩ : ∃ T : ℤ, (m0.toNat : ℤ) + m1.toNat = M + T * 2 ^ v := by
    have h1 : BitVec.ofInt v ((m0.toNat : ℤ) + m1.toNat) = BitVec.ofInt v M := by
      rw [BitVec.ofInt_add, ofInt_toNat, ofInt_toNat, hm]
    have h2 := congrArg BitVec.toNat h1
    rw [BitVec.toNat_ofInt, BitVec.toNat_ofInt] at h2
    have hpos : ((2 ^ v : ℕ) : ℤ) ≠ 0 := by positivity
    have h3 : ((m0.toNat : ℤ) + m1.toNat) % ((2 ^ v : ℕ) : ℤ) = M % ((2 ^ v : ℕ) : ℤ) := by
      have e1 := Int.emod_nonneg ((m0.toNat : ℤ) + m1.toNat) hpos
      have e2 := Int.emod_nonneg M hpos
      omega
    obtain ⟨T, hT⟩ := Int.dvd_of_emod_eq_zero (Int.emod_eq_emod_iff_emod_sub_eq_zero.mp h3)
    refine ⟨T, ?_⟩
    push_cast at hT
    linarith
  have hsw : ∀ m : BitVec v, m.setWidth w = BitVec.ofInt w (m.toNat : ℤ) := by
    intro m
    rw [BitVec.ofInt_natCast]
    apply BitVec.eq_of_toNat_eq
    simp
  rw [hsw, hsw, ushiftRight_eq, ushiftRight_eq, ← BitVec.ofInt_mul, ← BitVec.ofInt_mul, ← ofInt_sub, ← ofInt_sub,
    ← BitVec.ofInt_add]
  have hc := add_ediv_carry (x0.toNat : ℤ) (x1.toNat : ℤ) (2 ^ bits) hp
  have hsum : (x0.toNat + x1.toNat : ℤ) / 2 ^ bits = X / 2 ^ bits + M * 2 ^ (w - bits) := by
    rw [hM]
    have : (2 : ℤ) ^ w = 2 ^ bits * 2 ^ (w - bits) := by rw [← pow_add]; congr 1; omega
    rw [this, show M * ((2 : ℤ) ^ bits * 2 ^ (w - bits)) = 2 ^ bits * (M * 2 ^ (w - bits)) by ring,
      Int.add_mul_ediv_left _ _ hp.ne']
  have hif : ((x0.toNat : ℤ) % 2 ^ bits + (x1.toNat : ℤ) % 2 ^ bits ≥ 2 ^ bits) ↔
      (x0.toNat % 2 ^ bits + x1.toNat % 2 ^ bits ≥ 2 ^ bits) := by
    rw [ge_iff_le, ge_iff_le, ← Int.ofNat_le]; push_cast; rfl
  simp only [hif] at hc
  apply ofInt_congr
  refine ⟨-(T * 2 ^ (v - bits)), ?_⟩
  have hpow : (2 : ℤ) ^ v * 2 ^ (w - bits) = 2 ^ w * 2 ^ (v - bits) := by
    rw [← pow_add, ← pow_add]; congr 1; omega
  push_cast
  linear_combination hsum - hc - 2 ^ (w - bits) * hT - T * hpow

theorem truncFieldWidth_le {bits v : ℕ} (h : Semi2k.truncFieldWidth bits = some v) : bits ≤ v := by
  unfold Semi2k.truncFieldWidth at h
  split_ifs at h <;> simp at h <;> omega

theorem truncFieldWidth_some {bits : ℕ} (h : bits ≤ 128) : ∃ v, Semi2k.truncFieldWidth bits = some v := by
  unfold Semi2k.truncFieldWidth
  split_ifs <;> exact ⟨_, rfl⟩

/-- the two shares held by the computing roles -/
theorem two_shares {x : Sh (BitVec w)} {X : BitVec w} (hx : Opens x X) (P : Fin 3) :
    x.fst P + x.snd P + x.snd (P + 1) = X := by
  rw [← hx.2, total_role P, hx.1 P, hx.1 (P + 1), (role_ne P).2.2.2.1]

/-! ### `TruncAPr2` -/

/-- C28: truncation with wrap correction, for fixed roles -/
theorem truncAPr2With_ok (hE : EnvOk3 E Inv) (hw : 2 ≤ w) (h128 : w ≤ 128) (N : ℕ) {bits : ℕ} (h0 : 0 < bits)
    (hb : bits < w) {x : Sh (Arr w)} {X : ℕ → BitVec w} (hx : ∀ j, Opens (elem x j) (X j))
    (hlo : ∀ j, -2 ^ (w - 2) ≤ (X j).toInt) (hhi : ∀ j, (X j).toInt < 2 ^ (w - 2)) (P : Fin 3) :
    Ok Inv (truncAPr2With E N bits x P (P + 1) (P + 2)) (fun z => ∀ j, ∃ Z, Opens (elem z j) Z ∧
      (Z = BitVec.ofInt w ((X j).toInt / 2 ^ bits) ∨ Z = BitVec.ofInt w ((X j).toInt / 2 ^ bits + 1))) := by
  obtain ⟨v, hv⟩ := truncFieldWidth_some (show bits ≤ 128 by omega)
  refine Ok.enforce (by simp [h0, hb]) (ok_lift hv ?_)
  refine Ok.bind (Ok.bind (privateMul_ok hE N P _ _) fun z hz => Ok.pure (P := fun r : Arr v × Arr v => ∀ j, r.1 j + r.2 j =
    total (Semi2k.computeMW (v := v) ![x.fst P j + x.snd P j, x.snd (P + 1) j] 0 0)) fun j => ?_) fun mw hmw =>
    Ok.imp (reshare_ok hE N P _ _) fun z hz j => ⟨_, hz j, ?_⟩
  · have := hz j
    rw [total, Fin.sum_univ_two]
    simp only [Semi2k.computeMW, Semi2k.mulVVS]
    simp at this ⊢
    linear_combination (norm := skip) this
    ring_nf
    rw [neg_add_eq_zero]
    congr
  · have hXj := two_shares (hx j) P
    simp only [elem] at hXj
    have ht : total ![x.fst P j + x.snd P j, x.snd (P + 1) j] = X j := by
      rw [total, Fin.sum_univ_two]; simpa using hXj
    obtain ⟨M, hM, hMW⟩ := computeMW_spec hw ![x.fst P j + x.snd P j, x.snd (P + 1) j] (0 : Fin 2 → BitVec v) 0
      (by simp) (by rw [ht]; exact hlo j) (by rw [ht]; exact hhi j)
    rw [ht] at hM
    rw [← hmw j] at hMW
    obtain ⟨c, hc, this⟩ : ∃ c : ℤ, (c = 0 ∨ c = 1) ∧ _ = BitVec.ofInt w ((X j).toInt / 2 ^ bits - c) :=
      ⟨_, by split_ifs <;> simp, wrap_trunc _ _ _ _ _ _ hb.le (truncFieldWidth_le hv) hM hMW⟩
    simp only [Matrix.cons_val_zero, Matrix.cons_val_one] at this
    rw [← ofInt_pow]
    have e : ∀ a b c d : BitVec w, a - b + 1 + (c - d) = (a - b + (c - d)) + 1 := by intros; ring
    rw [e, this, show (1 : BitVec w) = BitVec.ofInt w 1 from rfl, ← BitVec.ofInt_add]
    rcases hc with rfl | rfl
    · right; rw [sub_zero]
    · left; rw [sub_add_cancel]

/-! ### `TruncPrWithMsbKnown` -/

theorem topBit_eq {v : ℕ} (hw : 0 < w) (x : BitVec w) :
    (topBit x : BitVec v) = BitVec.ofInt v (if 2 ^ (w - 1) ≤ x.toNat then 1 else 0) := by
  rw [topBit, and_one_word hw, lsb, BitVec.getLsbD_ushiftRight]
  have : x.getLsbD (w - 1 + 0) = decide (2 ^ (w - 1) ≤ x.toNat) := by
    rw [Nat.add_zero, BitVec.getLsbD, Nat.testBit_eq_decide_div_mod_eq]
    have hlt := x.isLt
    have h2 : 2 ^ w = 2 * 2 ^ (w - 1) := by rw [← pow_succ']; congr 1; omega
    have hp := Nat.two_pow_pos (w - 1)
    by_cases h : 2 ^ (w - 1) ≤ x.toNat
    · have : x.toNat / 2 ^ (w - 1) = 1 := by
        rw [Nat.div_eq_iff hp]; omega
      simp [h, this]
    · have : x.toNat / 2 ^ (w - 1) = 0 := Nat.div_eq_of_lt (by omega)
      simp [h, this]
  rw [this]
  by_cases h : 2 ^ (w - 1) ≤ x.toNat <;> simp [h]

/-- the hint fits the sign of the value -/
def SignFits {w : ℕ} (s : Sign) (X : BitVec w) : Prop :=
  match s with
  | .positive => 0 ≤ X.toInt
  | .negative => X.toInt < 0

/-- the wrap bit of `x0 + x1` from the top bits, when the top bit of the sum is known -/
theorem wrap_bit (hw : 0 < w) {s : Sign} {X x0 x1 : BitVec w} (hs : SignFits s X)
    (h : x0 + x1 = X + (1 : BitVec w) <<< (w - 1)) :
    ∃ M : ℤ, (x0.toNat : ℤ) + x1.toNat = (X.toInt + 2 ^ (w - 1)) + M * 2 ^ w ∧
      (s = .positive → M = (if 2 ^ (w - 1) ≤ x0.toNat then 1 else 0) * (if 2 ^ (w - 1) ≤ x1.toNat then 1 else 0)) ∧
      (s = .negative → M = 1 - (1 - (if 2 ^ (w - 1) ≤ x0.toNat then 1 else 0)) *
        (1 - (if 2 ^ (w - 1) ≤ x1.toNat then 1 else 0))) := by
  obtain ⟨b1, b2⟩ := toInt_bounds X
  have h2 : (2 : ℤ) ^ w = 2 * 2 ^ (w - 1) := by rw [← pow_succ']; congr 1; omega
  have h2' : 2 ^ w = 2 * 2 ^ (w - 1) := by rw [← pow_succ']; congr 1; omega
  have l0 := x0.isLt
  have l1 := x1.isLt
  have hsum : ((x0 + x1).toNat : ℤ) = X.toInt + 2 ^ (w - 1) := by
    refine toNat_eq_of_range ?_ (by linarith) (by linarith)
    rw [h, BitVec.ofInt_add, BitVec.ofInt_toInt, ofInt_pow]
  rw [BitVec.toNat_add] at hsum
  obtain ⟨Q, hQ⟩ : ∃ Q : ℕ, Q = 2 ^ (w - 1) := ⟨_, rfl⟩
  have hQz : ((Q : ℕ) : ℤ) = 2 ^ (w - 1) := by rw [hQ]; push_cast; rfl
  rw [← hQ] at h2'
  rw [h2', ← hQz] at hsum
  rw [h2'] at l0 l1
  rw [← hQ, h2, ← hQz]
  rw [← hQz] at b1 b2
  by_cases hc : x0.toNat + x1.toNat < 2 * Q
  · rw [Nat.mod_eq_of_lt hc] at hsum
    refine ⟨0, by push_cast at hsum; linarith, ?_⟩
    rw [SignFits.eq_def] at hs
    cases s
    · refine ⟨fun _ => ?_, fun h => by cases h⟩
      simp only at hs
      split_ifs <;> omega
    · refine ⟨fun h => (by cases h), fun _ => ?_⟩
      simp only at hs
      split_ifs <;> omega
  · rw [Nat.mod_eq_sub_mod (by omega), Nat.mod_eq_of_lt (by omega)] at hsum
    refine ⟨1, by push_cast [Nat.cast_sub (show 2 * Q ≤ x0.toNat + x1.toNat by omega)] at hsum; linarith, ?_⟩
    rw [SignFits.eq_def] at hs
    cases s
    · refine ⟨fun _ => ?_, fun h => by cases h⟩
      simp only at hs
      split_ifs <;> omega
    · refine ⟨fun h => (by cases h), fun _ => ?_⟩
      simp only at hs
      split_ifs <;> omega

/-- C28: truncation with a sign hint, for fixed roles: any value whose sign fits the hint -/
theorem truncPrMsbWith_ok (hE : EnvOk3 E Inv) (h128 : w ≤ 128) (N : ℕ) {s : Sign} {bits : ℕ} (h0 : 0 < bits)
    (hb : bits < w) {x : Sh (Arr w)} {X : ℕ → BitVec w} (hx : ∀ j, Opens (elem x j) (X j))
    (hs : ∀ j, SignFits s (X j)) (P : Fin 3) :
    Ok Inv (truncPrMsbWith E N s bits x P (P + 1) (P + 2)) (fun z => ∀ j, ∃ Z, Opens (elem z j) Z ∧
      (Z = BitVec.ofInt w ((X j).toInt / 2 ^ bits) ∨ Z = BitVec.ofInt w ((X j).toInt / 2 ^ bits - 1))) := by
  have hw : 0 < w := by omega
  obtain ⟨v, hv⟩ := truncFieldWidth_some (show bits ≤ 128 by omega)
  refine Ok.enforce (by simp [h0, hb]) (ok_lift hv ?_)
  refine Ok.bind (privateMul_ok hE N P _ _) fun z hz => Ok.imp (reshare_ok hE N P _ _) fun z' hz' j => ⟨_, hz' j, ?_⟩
  have hXj := two_shares (hx j) P
  simp only [elem] at hXj
  obtain ⟨M, hM, hMs⟩ := wrap_bit (x0 := x.fst P j + x.snd P j + (1 : BitVec w) <<< (w - 1)) (x1 := x.snd (P + 1) j)
    hw (hs j) (by rw [← hXj]; ring)
  set x0 := x.fst P j + x.snd P j + (1 : BitVec w) <<< (w - 1) with hx0
  set x1 := x.snd (P + 1) j with hx1
  have hzj := hz j
  beta_reduce at hzj
  have hm : s.flip (z.1 j) + s.flip' (z.2 j) = BitVec.ofInt v M := by
    rw [← hx0, ← hx1, topBit_eq hw, topBit_eq hw] at hzj
    cases s
    · simp only [Sign.flip, Sign.flip'] at hzj ⊢
      rw [hzj, hMs.1 rfl, BitVec.ofInt_mul]
    · simp only [Sign.flip, Sign.flip'] at hzj ⊢
      rw [hMs.2 rfl, ofInt_sub, BitVec.ofInt_mul, ofInt_sub, ofInt_sub]
      rw [show (BitVec.ofInt v 1) = 1 from rfl]
      linear_combination -hzj
  have key := wrap_trunc _ _ _ _ _ _ hb.le (truncFieldWidth_le hv) hM hm
  have hq : (((X j).toInt + 2 ^ (w - 1)) / 2 ^ bits : ℤ) = (X j).toInt / 2 ^ bits + 2 ^ (w - bits - 1) := by
    have : (2 : ℤ) ^ (w - 1) = 2 ^ bits * 2 ^ (w - bits - 1) := by rw [← pow_add]; congr 1; omega
    rw [this, Int.add_mul_ediv_left _ _ (by positivity)]
  simp only [shiftLeft_eq_mul _ (w - bits)]
  rw [← ofInt_pow (w - bits - 1)]
  have e : ∀ a b c d f : BitVec w, a - b - f + (c - d) = (a - b + (c - d)) - f := by intros; ring
  rw [e, key, hq, ← ofInt_sub]
  split_ifs
  · right; congr 1; ring
  · left; congr 1; ring

/-! ### `TruncAPr` without a hint -/

/-- C28: the probabilistic truncation, for fixed roles -/
theorem truncAPrWith_ok (hE : EnvOk3 E Inv) (N : ℕ) {bits : ℕ} (hb : bits + 2 ≤ w) {x : Sh (Arr w)}
    {X : ℕ → BitVec w} (hx : ∀ j, Opens (elem x j) (X j))
    (hlo : ∀ j, -2 ^ (w - 2) ≤ (X j).toInt) (hhi : ∀ j, (X j).toInt < 2 ^ (w - 2)) (P : Fin 3) :
    Ok Inv (truncAPrWith E N bits x P (P + 1) (P + 2)) (fun z => ∀ j, ∃ Z, Opens (elem z j) Z ∧
      (Z = BitVec.ofInt w ((X j).toInt / 2 ^ bits) ∨ Z = BitVec.ofInt w ((X j).toInt / 2 ^ bits + 1)) ∧
      ((2 : ℤ) ^ bits ∣ (X j).toInt → Z = BitVec.ofInt w ((X j).toInt / 2 ^ bits))) := by
  obtain ⟨n10, n20, n21, h12, h20⟩ := role_ne P
  refine Ok.enforce (by simpa using hb) (Ok.bind (hE.prss _ _ _ (fun i => by revert i P; decide)) fun r hr =>
    Ok.bind (hE.priv _ _ _) fun cr _ => Ok.imp (reshare_ok hE N P _ _) fun z hz j => ⟨_, hz j, ?_⟩)
  have e1 : two r 0 (P + 1) = one r 0 (P + 2) := by rw [two_eq_one hr, h12]
  have e2 : two r 0 (P + 2) = one r 0 P := by rw [two_eq_one hr, h20]
  have hXj := two_shares (hx j) P
  simp only [elem] at hXj
  have ht : total ![x.fst P j + x.snd P j, x.snd (P + 1) j] = X j := by
    rw [total, Fin.sum_univ_two]; simpa using hXj
  have hr2 : total ![one r 0 P j, one r 0 (P + 2) j] = one r 0 (P + 2) j + one r 0 P j := by
    rw [total, Fin.sum_univ_two]; simp [add_comm]
  set R := one r 0 (P + 2) j + one r 0 P j with hR
  have key := c24_truncPr_error (n := 2) (w := w) (by omega) ![x.fst P j + x.snd P j, x.snd (P + 1) j]
    ![one r 0 P j, one r 0 (P + 2) j] ![cr (N + j) + (R <<< 1) >>> (bits + 1), -(cr (N + j))]
    ![cr j + R >>> (w - 1), -(cr j)] bits (by omega)
    (by rw [hr2, total, Fin.sum_univ_two]; simp)
    (by rw [hr2, total, Fin.sum_univ_two]; simp)
    (by rw [ht]; exact hlo j) (by rw [ht]; exact hhi j)
  rw [ht] at key
  have hsum : ∀ f : Fin 2 → BitVec w, total f = f 0 + f 1 := fun f => by rw [total, Fin.sum_univ_two]
  have hc : ∀ i, allReduce (· + ·) (fun k : Fin 2 => (if k = 0 then
      (![x.fst P j + x.snd P j, x.snd (P + 1) j] : Fin 2 → BitVec w) k + (1 : BitVec w) <<< (w - 2) else
      (![x.fst P j + x.snd P j, x.snd (P + 1) j] : Fin 2 → BitVec w) k) +
      (![one r 0 P j, one r 0 (P + 2) j] : Fin 2 → BitVec w) k) i =
      x.fst P j + x.snd P j + (1 : BitVec w) <<< (w - 2) + one r 0 P j + (x.snd (P + 1) j + one r 0 (P + 2) j) := by
    intro i
    rw [allReduce_add, hsum]; simp
  rw [hsum] at key
  simp only [Semi2k.truncAPr, hc, if_true, Fin.isValue, one_ne_zero, if_false, Matrix.cons_val_zero,
    Matrix.cons_val_one] at key
  simp only [e1, e2, ← hR]
  rw [show x.snd (P + 1) j + one r 0 (P + 2) j + (x.fst P j + x.snd P j + (1 : BitVec w) <<< (w - 2) + one r 0 P j) =
    x.fst P j + x.snd P j + (1 : BitVec w) <<< (w - 2) + one r 0 P j + (x.snd (P + 1) j + one r 0 (P + 2) j) by ring]
  exact key

/-! ### The kernels -/

/-- C28: `TruncAPr`: every value in `[-2^(w-2), 2^(w-2))`, every shift up to `w - 2`, every randomness
whose pivot is not one of the two colliding ones -/
theorem c28_truncAPr (hE : EnvOk3 E Inv) (hp : PivotOk E Inv) (N : ℕ) {bits : ℕ} (hb : bits + 2 ≤ w) {x : Sh (Arr w)}
    {X : ℕ → BitVec w} (hx : ∀ j, Opens (elem x j) (X j))
    (hlo : ∀ j, -2 ^ (w - 2) ≤ (X j).toInt) (hhi : ∀ j, (X j).toInt < 2 ^ (w - 2)) :
    Ok Inv (truncAPr E N none bits x) (fun z => ∀ j, ∃ Z, Opens (elem z j) Z ∧
      (Z = BitVec.ofInt w ((X j).toInt / 2 ^ bits) ∨ Z = BitVec.ofInt w ((X j).toInt / 2 ^ bits + 1)) ∧
      ((2 : ℤ) ^ bits ∣ (X j).toInt → Z = BitVec.ofInt w ((X j).toInt / 2 ^ bits))) :=
  pivoted_ok hp fun P => truncAPrWith_ok hE N hb hx hlo hhi P

/-- the same for every randomness, if the kernel finishes -/
theorem c28_truncAPr_finished (hE : EnvOk3 E Inv) (N : ℕ) {bits : ℕ} (hb : bits + 2 ≤ w) {x : Sh (Arr w)}
    {X : ℕ → BitVec w} (hx : ∀ j, Opens (elem x j) (X j))
    (hlo : ∀ j, -2 ^ (w - 2) ≤ (X j).toInt) (hhi : ∀ j, (X j).toInt < 2 ^ (w - 2)) :
    Part Inv (truncAPr E N none bits x) (fun z => ∀ j, ∃ Z, Opens (elem z j) Z ∧
      (Z = BitVec.ofInt w ((X j).toInt / 2 ^ bits) ∨ Z = BitVec.ofInt w ((X j).toInt / 2 ^ bits + 1)) ∧
      ((2 : ℤ) ^ bits ∣ (X j).toInt → Z = BitVec.ofInt w ((X j).toInt / 2 ^ bits))) :=
  pivoted_part hE fun P => truncAPrWith_ok hE N hb hx hlo hhi P

/-- C28: `TruncAPr` with a sign hint: every value of that sign, every shift `0 < bits < w` -/
theorem c28_truncAPr_hint (hE : EnvOk3 E Inv) (hp : PivotOk E Inv) (h128 : w ≤ 128) (N : ℕ) {s : Sign} {bits : ℕ}
    (h0 : 0 < bits) (hb : bits < w) {x : Sh (Arr w)} {X : ℕ → BitVec w} (hx : ∀ j, Opens (elem x j) (X j))
    (hs : ∀ j, SignFits s (X j)) :
    Ok Inv (truncAPr E N (some s) bits x) (fun z => ∀ j, ∃ Z, Opens (elem z j) Z ∧
      (Z = BitVec.ofInt w ((X j).toInt / 2 ^ bits) ∨ Z = BitVec.ofInt w ((X j).toInt / 2 ^ bits - 1))) :=
  pivoted_ok hp fun P => truncPrMsbWith_ok hE h128 N h0 hb hx hs P

@[inherit_doc c28_truncAPr_finished]
theorem c28_truncAPr_hint_finished (hE : EnvOk3 E Inv) (h128 : w ≤ 128) (N : ℕ) {s : Sign} {bits : ℕ}
    (h0 : 0 < bits) (hb : bits < w) {x : Sh (Arr w)} {X : ℕ → BitVec w} (hx : ∀ j, Opens (elem x j) (X j))
    (hs : ∀ j, SignFits s (X j)) :
    Part Inv (truncAPr E N (some s) bits x) (fun z => ∀ j, ∃ Z, Opens (elem z j) Z ∧
      (Z = BitVec.ofInt w ((X j).toInt / 2 ^ bits) ∨ Z = BitVec.ofInt w ((X j).toInt / 2 ^ bits - 1))) :=
  pivoted_part hE fun P => truncPrMsbWith_ok hE h128 N h0 hb hx hs P

/-- C28: `TruncAPr2`: every value in `[-2^(w-2), 2^(w-2))`, every shift `0 < bits < w` -/
theorem c28_truncAPr2 (hE : EnvOk3 E Inv) (hp : PivotOk E Inv) (hw : 2 ≤ w) (h128 : w ≤ 128) (N : ℕ) {bits : ℕ}
    (h0 : 0 < bits) (hb : bits < w) {x : Sh (Arr w)} {X : ℕ → BitVec w} (hx : ∀ j, Opens (elem x j) (X j))
    (hlo : ∀ j, -2 ^ (w - 2) ≤ (X j).toInt) (hhi : ∀ j, (X j).toInt < 2 ^ (w - 2)) :
    Ok Inv (truncAPr2 E N bits x) (fun z => ∀ j, ∃ Z, Opens (elem z j) Z ∧
      (Z = BitVec.ofInt w ((X j).toInt / 2 ^ bits) ∨ Z = BitVec.ofInt w ((X j).toInt / 2 ^ bits + 1))) :=
  pivoted_ok hp fun P => truncAPr2With_ok hE hw h128 N h0 hb hx hlo hhi P

@[inherit_doc c28_truncAPr_finished]
theorem c28_truncAPr2_finished (hE : EnvOk3 E Inv) (hw : 2 ≤ w) (h128 : w ≤ 128) (N : ℕ) {bits : ℕ}
    (h0 : 0 < bits) (hb : bits < w) {x : Sh (Arr w)} {X : ℕ → BitVec w} (hx : ∀ j, Opens (elem x j) (X j))
    (hlo : ∀ j, -2 ^ (w - 2) ≤ (X j).toInt) (hhi : ∀ j, (X j).toInt < 2 ^ (w - 2)) :
    Part Inv (truncAPr2 E N bits x) (fun z => ∀ j, ∃ Z, Opens (elem z j) Z ∧
      (Z = BitVec.ofInt w ((X j).toInt / 2 ^ bits) ∨ Z = BitVec.ofInt w ((X j).toInt / 2 ^ bits + 1))) :=
  pivoted_part hE fun P => truncAPr2With_ok hE hw h128 N h0 hb hx hlo hhi P

/-- a pivot in the safe range exists and such sessions exist: the one of the examples -/
theorem aby3Demo_pivotOk : PivotOk aby3DemoEnv Sync := by
  intro s hs
  obtain ⟨p, s', h, hs', hp⟩ := (aby3_sysEnv_ok _ _).publ s hs
  refine ⟨p, s', h, hs', hp, ?_⟩
  have : p = _ := congrArg (fun q => q.1) (Option.some_inj.1 h).symm
  rw [this]
  show (BitVec.ofNat 64 (_ % 1000003)).toNat + 2 < 2 ^ 64
  rw [BitVec.toNat_ofNat]
  refine lt_of_le_of_lt (Nat.add_le_add_right ((Nat.mod_le _ _).trans (Nat.mod_lt _ (by norm_num)).le) 2) (by norm_num)

/-! ### Examples -/

/-- two elements: 37 and -21 -/
def aby3DemoArr : Sh (Arr 8) :=
  ⟨fun i j => (toSharesA (if j = 0 then 37 else -21 : BitVec 8) ![100, 200, 0]).fst i,
   fun i j => (toSharesA (if j = 0 then 37 else -21 : BitVec 8) ![100, 200, 0]).snd i⟩

/-- openings of the first two elements -/
def showArr {σ : Type} {w : ℕ} (r : Option (Sh (Arr w) × σ)) : Option (List ℤ) :=
  r.map fun p => [0, 1].map fun j => (total (elem p.1 j).fst).toInt

example : ∀ j, Opens (elem aby3DemoArr j) (if j = 0 then 37 else -21) := fun _ => c27_to_shares _ _
example : showArr (truncAPr aby3DemoEnv 2 none 2 aby3DemoArr aby3DemoStart) = some [9, -6] := by decide +kernel
example : showArr (truncAPr2 aby3DemoEnv 2 2 aby3DemoArr aby3DemoStart) = some [10, -5] := by decide +kernel
example : showArr (truncAPr aby3DemoEnv 2 (some .negative) 2
    ⟨fun i _ => aby3DemoArr.fst i 1, fun i _ => aby3DemoArr.snd i 1⟩ aby3DemoStart) = some [-6, -6] := by decide +kernel
example : (truncA aby3DemoEnv (toSharesA (-21 : BitVec 8) ![100, 3, 0]) 2 aby3DemoStart).map
    (fun p => (a2p p.1 1).toInt) = some (-5) := by decide +kernel
example : roles (fun _ => 7#64) = some (1, 2, 0) := by decide +kernel

end Spu.Props

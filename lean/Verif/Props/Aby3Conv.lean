import Verif.Props.Aby3Bool
import Verif.Props.Aby3Trunc

set_option autoImplicit false

/-!
# C29: aby3 share conversions preserve the shared value
-/

namespace Spu.Props
open Spu.Model Spu.Model.Circ Spu.Model.Bits Spu.Model.Aby3 Spu.Model.Aby3.Env Spu.Model.Prg Spu.Spec Spu.Lemmas
open Spu.Model.Semi2k (backBits)

variable {σ : Type} {Inv : σ → Prop} {E : Env σ} {w : ℕ}

/-- a word masked by a zero share -/
theorem zero_masked {K : ℕ} (hwK : w = 2 ^ K) (hK : 3 ≤ K) (h128 : w ≤ 128)
    {r : (Fin 3 → BitVec w) × (Fin 3 → BitVec w)} (hr : ∀ i, r.2 i = r.1 (i + 1)) (k : Fin 3) (g : Fin 3 → BitVec w)
    (z : Fin 3 → BitVec w) (hz : z = fun i => if i = k then (r.1 i ^^^ r.2 i) ^^^ g i else r.1 i ^^^ r.2 i) :
    BRep3 ⟨w, w, ⟨z, rotate z⟩⟩ (g k) where
  repl i := rfl
  opens := by
    show xorAll z = BitVec.setWidth w (g k)
    rw [hz, xorAll_ite k (fun i => r.1 i ^^^ r.2 i) g, xorAll_prss hr, BitVec.setWidth_eq]
    exact BitVec.zero_xor
  lt := BitVec.isLt _
  le := le_rfl
  store := backBits_full hwK hK h128

theorem splitA_ok {K : ℕ} (hwK : w = 2 ^ K) (hK : 3 ≤ K) (h128 : w ≤ 128) {x : Sh (BitVec w)} {X : BitVec w}
    (hx : Opens x X) {r : (Fin 3 → BitVec w) × (Fin 3 → BitVec w)} (hr : ∀ i, r.2 i = r.1 (i + 1)) :
    BRep3 (splitA x r).1 (x.fst 0 + x.snd 0) ∧ BRep3 (splitA x r).2 (x.fst 2) ∧ x.fst 0 + x.snd 0 + x.fst 2 = X := by
  obtain ⟨h0, h1, h2⟩ := repl3.1 hx.1
  refine ⟨zero_masked hwK hK h128 hr 0 (fun i => x.fst i + x.snd i) _ rfl, ⟨repl3.2 ⟨rfl, ?_, rfl⟩, ?_,
    BitVec.isLt _, le_rfl, backBits_full hwK hK h128⟩, ?_⟩
  · simp [splitA, h1]
  · rw [xorAll3]
    show (0 ^^^ 0 ^^^ x.fst 2 : BitVec w) = (x.fst 2).setWidth w
    rw [BitVec.setWidth_eq, BitVec.xor_self]
    exact BitVec.zero_xor
  · rw [← hx.2, total3, h0]

/-- A2B: the boolean share opens to the secret. -/
theorem c29_a2b (hE : EnvOk3 E Inv) {K : ℕ} (hwK : w = 2 ^ K) (hK : 3 ≤ K) (h128 : w ≤ 128) {x : Sh (BitVec w)}
    {X : BitVec w} (hx : Opens x X) : Ok Inv (a2b3 E x) (fun c => BRep3 c X ∧ c.nb = w) := by
  have S := c26_aby3_gates (w := w) hE hwK hK h128
  refine Ok.bind (both_ok hE w) fun r hr => ?_
  obtain ⟨hm, hn, e⟩ := splitA_ok hwK hK h128 hx hr
  have hw : 1 < w := by
    rw [hwK]; exact Nat.one_lt_two_pow (by omega)
  refine Ok.imp (c15_add_bb S hw hm hn rfl) fun c hc => ⟨e ▸ hc.1, ?_⟩
  have : c.nb = min (w + 1) w := hc.2
  omega

/-- Sign extraction: a 1-bit sharing of the top bit of the secret. -/
theorem c29_msb_a2b (hE : EnvOk3 E Inv) {K : ℕ} (hwK : w = 2 ^ K) (hK : 3 ≤ K) (h128 : w ≤ 128) {x : Sh (BitVec w)}
    {X : BitVec w} (hx : Opens x X) :
    Ok Inv (msbA2B3 E x) (fun c => BRep3 c (BitVec.ofNat w X.msb.toNat) ∧ c.nb = 1) := by
  have S := c26_aby3_gates (w := w) hE hwK hK h128
  refine Ok.bind (both_ok hE w) fun r hr => ?_
  obtain ⟨hm, hn, e⟩ := splitA_ok hwK hK h128 hx hr
  have hw : 1 < w := by
    rw [hwK]; exact Nat.one_lt_two_pow (by omega)
  refine Ok.bind (c15_carry_a2b_top S (by omega) hwK h128 hm hn rfl rfl) fun c hc => ?_
  refine Ok.bind (xorBB3_ok h128 hm hn) fun s hs => ?_
  have hsn : s.nb = w := hs.2.trans (max_self w)
  refine Ok.bind (rshiftB3_ok (k := w - 1) h128 (shiftOk_iff.2 (by
    have := backBits_le hs.1.store
    omega)) hs.1) fun t ht => ?_
  refine Ok.imp (xorBB3_ok h128 ht.1 hc.1) fun q hq => ⟨?_, ?_⟩
  · rw [← e, ← top_bit_of_carry (by omega)]; exact hq.1
  · have h1 : q.nb = max t.nb c.nb := hq.2
    have h2 : t.nb = s.nb - (w - 1) := ht.2
    have h5 : c.nb = 1 := hc.2
    omega

/-- B2A through the adder circuit: the additive share opens to the boolean secret. -/
theorem c29_b2a_ppa (hE : EnvOk3 E Inv) {K : ℕ} (hwK : w = 2 ^ K) (hK : 3 ≤ K) (h128 : w ≤ 128) {a : BShr}
    {x : BitVec w} (ha : BRep3 a x) : Ok Inv (b2aPPA E a) (fun z => Opens z x) := by
  refine Ok.enforce (by simpa using ha.le) ?_
  by_cases h0 : a.nb = 0
  · rw [if_pos h0]
    refine Ok.pure ⟨fun i => rfl, ?_⟩
    have h1 := ha.lt
    rw [h0] at h1
    have : x = 0 := BitVec.eq_of_toNat_eq (by simpa using h1)
    rw [this, total3]; simp
  · rw [if_neg h0]
    have S := c26_aby3_gates (w := w) hE hwK hK h128
    have hw : 1 < w := by
      rw [hwK]; exact Nat.one_lt_two_pow (by omega)
    have hv := backBits_le ha.store
    have hx : BRep3 ⟨w, w, mapSh (BitVec.setWidth w) a.sh⟩ x := by
      refine brep3_map ha xlin_setWidth ?_ (BitVec.isLt _) le_rfl (backBits_full hwK hK h128)
      refine BitVec.eq_of_getLsbD_eq fun i hi => ?_
      rw [setWidth_bit, setWidth_bit, setWidth_bit]
      by_cases h : i < a.v
      · simp [h]
      · rw [brep3_bit ha (by omega)]; simp
    refine Ok.bind (both_ok hE w) fun ra hra => Ok.bind (both_ok hE w) fun rb hrb => ?_
    refine Ok.bind (c15_add_bb S hw hx (zero_masked hwK hK h128 hrb 1 (fun i => ra.1 i + ra.2 i) _ rfl) rfl)
      fun s hs => Ok.pure ⟨fun i => rfl, ?_⟩
    have ho := c27_b2p hs.1 2
    obtain ⟨s0, s1, s2⟩ := repl3.1 hs.1.repl
    have e : BitVec.setWidth w (s.sh.fst 0 ^^^ s.sh.snd 0 ^^^ s.sh.fst 2) = x + (ra.1 1 + ra.2 1) := by
      rw [← ho]
      show _ = BitVec.setWidth w (s.sh.fst 2 ^^^ s.sh.snd 2 ^^^ s.sh.snd 0)
      rw [s2]; congr 1; ac_rfl
    rw [total3]
    simp only [if_true, show (1 : Fin 3) ≠ 0 by decide, show (2 : Fin 3) ≠ 0 by decide, if_false, e]
    rw [hra 1, show (1 : Fin 3) + 1 = 2 from rfl]
    ring

/-! ### B2A by oblivious transfer -/

theorem bitCompose_eq (x : Arr w) (nb idx : ℕ) :
    bitCompose x nb idx = ∑ q ∈ Finset.range nb, x (idx * nb + q) <<< q := foldl_add_range _ _

/-- one transferred bit -/
theorem b2aOT_bit (hw : 0 < w) {v : ℕ} (hv : 0 < v) {y0 y1 y2 : BitVec v} {bit : ℕ} (hb : bit < v)
    (t m0 m1 : BitVec w) (c : Bool) (hc : c = (y2 >>> bit).getLsbD 0) :
    (if !c then (m0 ^^^ ((((y0 ^^^ y1) >>> bit) &&& 1).setWidth w - t)) ^^^ (if !c then m0 else m1)
      else (m1 ^^^ (((~~~ (y0 ^^^ y1) >>> bit) &&& 1).setWidth w - t)) ^^^ (if !c then m0 else m1)) =
    BitVec.ofNat w ((y0 ^^^ y1 ^^^ y2).getLsbD bit).toNat - t := by
  have h1 : ∀ y : BitVec v, ((y >>> bit) &&& 1).setWidth w = BitVec.ofNat w (y.getLsbD bit).toNat := by
    intro y
    rw [and_one_word hv]
    unfold lsb
    rw [BitVec.getLsbD_ushiftRight]; simp
  have hc' : (y2 >>> bit).getLsbD 0 = y2.getLsbD bit := by rw [BitVec.getLsbD_ushiftRight]; simp
  rw [hc'] at hc
  rw [h1, h1]
  have hn : (~~~ (y0 ^^^ y1)).getLsbD bit = !(y0 ^^^ y1).getLsbD bit := by
    rw [BitVec.getLsbD_not]; simp [hb]
  rw [hn, BitVec.getLsbD_xor (x := y0 ^^^ y1) (y := y2), ← hc]
  have hx : ∀ m u : BitVec w, m ^^^ u ^^^ m = u := by
    intro m u; rw [BitVec.xor_comm m u, BitVec.xor_assoc, BitVec.xor_self, BitVec.xor_zero]
  cases c
  · simp [hx]
  · simp [hx]

theorem b2aOTWith_ok (hE : EnvOk3 E Inv) (hw : 0 < w) (N : ℕ) {a : BArr} {X : ℕ → BitVec w}
    (ha : ∀ j, j < N → BRep3 (elemB a j) (X j)) (h0 : a.nb ≠ 0) (P : Fin 3) :
    Ok Inv (b2aOTWith E N a P (P + 1) (P + 2)) (fun z => ∀ j, j < N → Opens (elem z j) (X j)) := by
  obtain ⟨n10, n20, n21, h12, h20⟩ := role_ne P
  refine Ok.bind (hE.prss _ _ _ (fun i => by revert i P; decide)) fun r hr => Ok.pure fun j hj => ?_
  have R := (ha j hj).repl
  have hv := backBits_le (ha j hj).store
  have e0 : ∀ k, two r k (P + 2) = one r k P := by intro k; rw [two_eq_one hr, h20]
  have e1 : two r 0 (P + 1) = one r 0 (P + 2) := by rw [two_eq_one hr, h12]
  have e2 : two r 0 P = one r 0 (P + 1) := two_eq_one hr 0 P
  -- the received word
  have hc : ∀ q, q < a.nb → ∀ f, f = j * a.nb + q → ∀ (c : BitVec w),
      c = (if !(bitDecompose (a.sh.fst (P + 1)) a.nb f) then
          (two r 1 (P + 2) f ^^^ (((a.sh.fst (P + 2) (f / a.nb) ^^^ a.sh.snd (P + 2) (f / a.nb)) >>> (f % a.nb) &&& 1).setWidth w
            - (one r 0 (P + 2) f + two r 0 (P + 2) f))) ^^^
            (if !(bitDecompose (a.sh.snd P) a.nb f) then one r 1 P f else one r 2 P f)
        else (two r 2 (P + 2) f ^^^ ((~~~ (a.sh.fst (P + 2) (f / a.nb) ^^^ a.sh.snd (P + 2) (f / a.nb)) >>> (f % a.nb) &&& 1).setWidth w
            - (one r 0 (P + 2) f + two r 0 (P + 2) f))) ^^^
            (if !(bitDecompose (a.sh.snd P) a.nb f) then one r 1 P f else one r 2 P f)) →
      c = BitVec.ofNat w ((X j).getLsbD q).toNat - (one r 0 (P + 2) f + one r 0 P f) := by
    intro q hq f hf c hc
    have hdiv : f / a.nb = j := by
      rw [hf, mul_comm, Nat.mul_add_div (by omega), Nat.div_eq_of_lt hq, add_zero]
    have hmod : f % a.nb = q := by
      rw [hf, mul_comm, Nat.mul_add_mod, Nat.mod_eq_of_lt hq]
    have hbh : bitDecompose (a.sh.snd P) a.nb f = (a.sh.fst (P + 1) j >>> q).getLsbD 0 := by
      unfold bitDecompose
      rw [hdiv, hmod]
      have : a.sh.snd P j = a.sh.fst (P + 1) j := R P
      rw [this]
    have hbr : bitDecompose (a.sh.fst (P + 1)) a.nb f = (a.sh.fst (P + 1) j >>> q).getLsbD 0 := by
      unfold bitDecompose
      rw [hdiv, hmod]
    have hs2 : a.sh.snd (P + 2) j = a.sh.fst P j := (R (P + 2)).trans (by rw [h20]; rfl)
    rw [hbh, hbr, hdiv, hmod, e0, e0, e0, hs2] at hc
    rw [hc, b2aOT_bit hw (v := a.v) (by have : a.nb ≤ a.v := hv; omega) (by have : a.nb ≤ a.v := hv; omega) _ _ _ _ rfl]
    congr 3
    have ho := (ha j hj).opens
    have : (a.sh.fst (P + 2) j ^^^ a.sh.fst P j ^^^ a.sh.fst (P + 1) j) = (X j).setWidth a.v := by
      refine Eq.trans ?_ ho
      rw [xorAll3]
      show _ = a.sh.fst 0 j ^^^ a.sh.fst 1 j ^^^ a.sh.fst 2 j
      rcases fin3_cases P with rfl | rfl | rfl
      · show a.sh.fst 2 j ^^^ a.sh.fst 0 j ^^^ a.sh.fst 1 j = _; ac_rfl
      · show a.sh.fst 0 j ^^^ a.sh.fst 1 j ^^^ a.sh.fst 2 j = _; rfl
      · show a.sh.fst 1 j ^^^ a.sh.fst 2 j ^^^ a.sh.fst 0 j = _; ac_rfl
    rw [this, setWidth_bit]
    have : q < a.v := by have : a.nb ≤ a.v := hv; omega
    simp [this]
  constructor
  · intro i
    rcases fin3_role P i with rfl | rfl | rfl
    · simp only [elem, if_pos, n10, if_false]
    · simp only [elem, n10, n20, n21, if_false, h12, e1]
    · simp only [elem, if_pos, n20, n21, if_false, h20, e0]
  · rw [total_role P]
    simp only [elem, if_pos, n10, n20, n21, if_false, Bool.false_eq_true]
    rw [bitCompose_eq, bitCompose_eq, bitCompose_eq, ← Finset.sum_add_distrib, ← Finset.sum_add_distrib]
    refine Eq.trans (Finset.sum_congr rfl fun q hq => ?_) (bits_sum_eq (ha j hj).lt)
    rw [hc q (Finset.mem_range.1 hq) _ rfl _ rfl]
    simp only [shiftLeft_eq_mul]
    ring

/-- B2A by oblivious transfer, on an array. -/
theorem c29_b2a_ot (hE : EnvOk3 E Inv) (hp : PivotOk E Inv) (hw : 0 < w) (N : ℕ) {a : BArr} {X : ℕ → BitVec w}
    (hle : a.nb ≤ w) (ha : ∀ j, j < N → BRep3 (elemB a j) (X j)) :
    Ok Inv (b2aOT E N a) (fun z => ∀ j, j < N → Opens (elem z j) (X j)) := by
  refine Ok.enforce (by simpa using hle) ?_
  by_cases h0 : a.nb = 0
  · rw [if_pos h0]
    refine Ok.pure fun j hj => ⟨fun i => rfl, ?_⟩
    have h1 := (ha j hj).lt
    rw [show (elemB a j).nb = 0 from h0] at h1
    have : X j = 0 := BitVec.eq_of_toNat_eq (by simpa using h1)
    rw [this, total3]; simp [elem]
  · rw [if_neg h0]
    exact pivoted_ok hp fun P => b2aOTWith_ok hE hw N ha h0 P

/-- the same for every randomness, if the conversion finishes -/
theorem c29_b2a_ot_finished (hE : EnvOk3 E Inv) (hw : 0 < w) (N : ℕ) {a : BArr} {X : ℕ → BitVec w}
    (hle : a.nb ≤ w) (ha : ∀ j, j < N → BRep3 (elemB a j) (X j)) :
    Part Inv (b2aOT E N a) (fun z => ∀ j, j < N → Opens (elem z j) (X j)) := by
  refine Part.enforce fun _ => ?_
  by_cases h0 : a.nb = 0
  · rw [if_pos h0]
    refine Part.of_ok (Ok.pure fun j hj => ⟨fun i => rfl, ?_⟩)
    have h1 := (ha j hj).lt
    rw [show (elemB a j).nb = 0 from h0] at h1
    have : X j = 0 := BitVec.eq_of_toNat_eq (by simpa using h1)
    rw [this, total3]; simp [elem]
  · rw [if_neg h0]
    exact pivoted_part hE fun P => b2aOTWith_ok hE hw N ha h0 P

/-- B2A, whichever of the two algorithms is chosen -/
theorem c29_b2a (hE : EnvOk3 E Inv) (hp : PivotOk E Inv) {K : ℕ} (hwK : w = 2 ^ K) (hK : 3 ≤ K) (h128 : w ≤ 128)
    {a : BShr} {x : BitVec w} (ha : BRep3 a x) : Ok Inv (b2aSelect E a) (fun z => Opens z x) := by
  unfold b2aSelect
  have hw : 0 < w := hwK ▸ Nat.two_pow_pos K
  split_ifs
  · refine Ok.bind (c29_b2a_ot hE hp hw 1 (X := fun _ => x) ha.le fun j _ => ha) fun r hr => Ok.pure ?_
    exact hr 0 (by omega)
  · exact c29_b2a_ppa hE hwK hK h128 ha

@[inherit_doc c29_b2a_ot_finished]
theorem c29_b2a_finished (hE : EnvOk3 E Inv) {K : ℕ} (hwK : w = 2 ^ K) (hK : 3 ≤ K) (h128 : w ≤ 128)
    {a : BShr} {x : BitVec w} (ha : BRep3 a x) : Part Inv (b2aSelect E a) (fun z => Opens z x) := by
  unfold b2aSelect
  have hw : 0 < w := hwK ▸ Nat.two_pow_pos K
  split_ifs
  · refine Part.bind (c29_b2a_ot_finished hE hw 1 (X := fun _ => x) ha.le fun j _ => ha) fun r hr => Part.of_ok (Ok.pure ?_)
    exact hr 0 (by omega)
  · exact Part.of_ok (c29_b2a_ppa hE hwK hK h128 ha)

/-! ### Equality -/

/-- the shared byte -/
def byteTot (x : Sh (Arr 8)) (f : ℕ) : BitVec 8 := xorAll fun i => x.fst i f

theorem andBytes_ok (hE : EnvOk3 E Inv) (half : ℕ) {l r : Sh (Arr 8)} (hl : Repl l) (hr : Repl r) :
    Ok Inv (andBytes E half l r) (fun z => Repl z ∧ ∀ f k, (byteTot z f).getLsbD k =
      ((byteTot l f).getLsbD k && (byteTot r f).getLsbD k)) := by
  refine Ok.bind (hE.prss _ _ _ (fun i => by revert i; decide)) fun q hq =>
    Ok.pure (P := fun z : Sh (Arr 8) => Repl z ∧ _) ⟨fun i => rfl, fun f k => ?_⟩
  obtain ⟨l0, l1, l2⟩ := repl3.1 hl
  obtain ⟨r0, r1, r2⟩ := repl3.1 hr
  unfold byteTot
  rw [xorAll3, xorAll3, xorAll3]
  dsimp only
  rw [two_eq_one hq, two_eq_one hq, two_eq_one hq, l0, l1, l2, r0, r1, r2]
  rw [show (0 : Fin 3) + 1 = 1 from rfl, show (1 : Fin 3) + 1 = 2 from rfl, show (2 : Fin 3) + 1 = 0 from rfl]
  simp only [BitVec.getLsbD_xor, BitVec.getLsbD_and]
  generalize (l.fst 0 f).getLsbD k = a0
  generalize (l.fst 1 f).getLsbD k = a1
  generalize (l.fst 2 f).getLsbD k = a2
  generalize (r.fst 0 f).getLsbD k = b0
  generalize (r.fst 1 f).getLsbD k = b1
  generalize (r.fst 2 f).getLsbD k = b2
  generalize (one q 0 0 f).getLsbD k = c0
  generalize (one q 0 1 f).getLsbD k = c1
  generalize (one q 0 2 f).getLsbD k = c2
  revert a0 a1 a2 b0 b1 b2 c0 c1 c2
  decide +kernel

theorem eqzLoop3_bits (hE : EnvOk3 E Inv) (N : ℕ) (Z : ℕ → Prop) : ∀ (t : ℕ) {x : Sh (Arr 8)}, Repl x →
    (∀ j, j < N → ((∀ k, k < 2 ^ t → (byteTot x j).getLsbD k = true) ↔ Z j) ∧
      ∀ k, 2 ^ t ≤ k → (byteTot x j).getLsbD k = false) →
    Ok Inv (eqzLoop3 E N 1 (2 ^ t) x) (fun z => Repl z ∧ ∀ j, j < N →
      ((byteTot z j).getLsbD 0 = true ↔ Z j) ∧ ∀ k, 0 < k → (byteTot z j).getLsbD k = false) := by
  intro t
  induction t with
  | zero =>
    intro x hx h
    unfold eqzLoop3
    rw [dif_pos (by simp)]
    refine Ok.pure ⟨hx, fun j hj => ⟨?_, fun k hk => (h j hj).2 k (by rw [pow_zero]; exact hk)⟩⟩
    rw [← (h j hj).1]
    simp
  | succ t ih =>
    intro x hx h
    have hpos : 0 < 2 ^ t := Nat.two_pow_pos t
    have h2 : (2 : ℕ) ^ (t + 1) = 2 * 2 ^ t := by rw [pow_succ]; ring
    unfold eqzLoop3
    by_cases hN : 2 ^ (t + 1) * N = N
    · rw [dif_pos hN]
      have : N = 0 := by
        by_contra h0
        have : 2 * N ≤ 2 ^ (t + 1) * N := Nat.mul_le_mul_right N (by omega)
        omega
      subst this
      exact Ok.pure ⟨hx, fun j hj => by omega⟩
    · rw [dif_neg hN, dif_neg (by omega), if_pos rfl]
      have hs : (2 : ℕ) ^ (t + 1) / 2 = 2 ^ t := by omega
      rw [hs]
      have hl : Repl (mapSh (fun a : Arr 8 => fun f => a f >>> (2 ^ t)) x) := fun i => by
        show (fun f => x.snd i f >>> (2 ^ t)) = fun f => x.fst (i + 1) f >>> (2 ^ t)
        rw [hx i]
      refine Ok.bind (andBytes_ok hE N hl hx) fun y hy => ih hy.1 fun j hj => ?_
      have hb : ∀ k, (byteTot y j).getLsbD k = ((byteTot x j).getLsbD (2 ^ t + k) && (byteTot x j).getLsbD k) := by
        intro k
        rw [hy.2]
        congr 1
        have : byteTot (mapSh (fun a : Arr 8 => fun f => a f >>> (2 ^ t)) x) j = byteTot x j >>> (2 ^ t) :=
          (xorAll_map xlin_shr (fun i => x.fst i j))
        rw [this, BitVec.getLsbD_ushiftRight]
      obtain ⟨h1, h3⟩ := h j hj
      refine ⟨?_, fun k hk => ?_⟩
      · rw [← h1]
        constructor
        · intro H k hk
          by_cases hkt : k < 2 ^ t
          · have := H k hkt
            rw [hb, Bool.and_eq_true] at this
            exact this.2
          · have := H (k - 2 ^ t) (by omega)
            rw [hb, Bool.and_eq_true] at this
            have e : 2 ^ t + (k - 2 ^ t) = k := by omega
            rw [e] at this
            exact this.1
        · intro H k hk
          rw [hb, H _ (by omega), H _ (by omega)]; rfl
      · rw [hb, h3 _ (by omega)]; rfl

theorem eqzLoop3_ok (hE : EnvOk3 E Inv) (N : ℕ) (Z : ℕ → Prop) : ∀ (t : ℕ) {x : Sh (Arr 8)}, Repl x →
    (∀ j, j < N → ((∀ i, i < 2 ^ t → ∀ k, k < 8 → (byteTot x (j * 2 ^ t + i)).getLsbD k = true) ↔ Z j)) →
    Ok Inv (eqzLoop3 E N (2 ^ t) (2 ^ (t + 3)) x) (fun z => Repl z ∧ ∀ j, j < N →
      ((byteTot z j).getLsbD 0 = true ↔ Z j) ∧ ∀ k, 0 < k → (byteTot z j).getLsbD k = false) := by
  intro t
  induction t with
  | zero =>
    intro x hx h
    refine eqzLoop3_bits hE N Z 3 hx fun j hj => ⟨?_, fun k hk => BitVec.getLsbD_of_ge _ _ (by simpa using hk)⟩
    rw [← h j hj]
    constructor
    · intro H i hi k hk
      have : i = 0 := by simpa using hi
      subst this
      rw [pow_zero, mul_one, add_zero]
      exact H k (by simpa using hk)
    · intro H k hk
      have := H 0 (by simp) k (by simpa using hk)
      rwa [pow_zero, mul_one, add_zero] at this
  | succ t ih =>
    intro x hx h
    have hpos : 0 < 2 ^ t := Nat.two_pow_pos t
    have h2 : (2 : ℕ) ^ (t + 1) = 2 * 2 ^ t := by rw [pow_succ]; ring
    have h3 : (2 : ℕ) ^ (t + 1 + 3) = 16 * 2 ^ t := by rw [show t + 1 + 3 = t + 4 by omega, pow_add]; ring
    have h4 : (2 : ℕ) ^ (t + 3) = 8 * 2 ^ t := by rw [pow_add]; ring
    unfold eqzLoop3
    by_cases hN : 2 ^ (t + 1 + 3) * N = N
    · rw [dif_pos hN]
      have : N = 0 := by
        by_contra h0
        have : 2 * N ≤ 2 ^ (t + 1 + 3) * N := Nat.mul_le_mul_right N (by omega)
        omega
      subst this
      exact Ok.pure ⟨hx, fun j hj => by omega⟩
    · rw [dif_neg hN, dif_neg (by omega), if_neg (by omega)]
      have hs : (2 : ℕ) ^ (t + 1) / 2 = 2 ^ t := by omega
      have hs' : (2 : ℕ) ^ (t + 1 + 3) / 2 = 2 ^ (t + 3) := by omega
      rw [hs, hs']
      have hl : Repl (mapSh (leftHalf (2 ^ (t + 1))) x) := fun i => by
        show leftHalf _ (x.snd i) = leftHalf _ (x.fst (i + 1))
        rw [hx i]
      have hr : Repl (mapSh (rightHalf (2 ^ (t + 1))) x) := fun i => by
        show rightHalf _ (x.snd i) = rightHalf _ (x.fst (i + 1))
        rw [hx i]
      refine Ok.bind (andBytes_ok hE _ hl hr) fun y hy => ih hy.1 fun j hj => ?_
      have hb : ∀ i, i < 2 ^ t → ∀ k, (byteTot y (j * 2 ^ t + i)).getLsbD k =
          ((byteTot x (j * 2 ^ (t + 1) + i)).getLsbD k && (byteTot x (j * 2 ^ (t + 1) + (2 ^ t + i))).getLsbD k) := by
        intro i hi k
        rw [hy.2]
        have hd : (j * 2 ^ t + i) / 2 ^ t = j := by
          rw [mul_comm, Nat.mul_add_div hpos, Nat.div_eq_of_lt hi, add_zero]
        have hm : (j * 2 ^ t + i) % 2 ^ t = i := by
          rw [mul_comm, Nat.mul_add_mod, Nat.mod_eq_of_lt hi]
        have e1 : byteTot (mapSh (leftHalf (2 ^ (t + 1))) x) (j * 2 ^ t + i) = byteTot x (j * 2 ^ (t + 1) + i) := by
          simp only [byteTot, mapSh, leftHalf, hs, hd, hm]
        have e2 : byteTot (mapSh (rightHalf (2 ^ (t + 1))) x) (j * 2 ^ t + i) = byteTot x (j * 2 ^ (t + 1) + (2 ^ t + i)) := by
          simp only [byteTot, mapSh, rightHalf, hs, hd, hm, add_assoc]
        rw [e1, e2]
      rw [← h j hj]
      constructor
      · intro H i hi k hk
        by_cases hit : i < 2 ^ t
        · have := H i hit k hk
          rw [hb i hit, Bool.and_eq_true] at this
          exact this.1
        · have := H (i - 2 ^ t) (by omega) k hk
          rw [hb _ (by omega), Bool.and_eq_true] at this
          have e : 2 ^ t + (i - 2 ^ t) = i := by omega
          rw [e] at this
          exact this.2
      · intro H i hi k hk
        rw [hb i hi, H _ (by omega) k hk, H _ (by omega) k hk]; rfl

theorem eqzFlag_ok (hE : EnvOk3 E Inv) (N : ℕ) {x : Sh (Arr w)} {X : ℕ → BitVec w} (hx : ∀ j, j < N → Opens (elem x j) (X j))
    (P : Fin 3) : Ok Inv (eqzFlag E N x P (P + 1) (P + 2)) (fun z => Repl z ∧ ∀ j, j < N →
      ((xorAll fun i => z.fst i j) = BitVec.allOnes w ↔ X j = 0)) := by
  obtain ⟨n10, n20, n21, h12, h20⟩ := role_ne P
  refine Ok.bind (hE.priv _ _ _) fun rr _ => Ok.bind (hE.prss _ _ _ (fun i => by revert i P; decide)) fun r hr =>
    Ok.pure (P := fun z : Sh (Arr w) => Repl z ∧ _) ?_
  have e : ∀ k, two r k P = one r k (P + 1) := fun k => two_eq_one hr k P
  constructor
  · intro i
    rcases fin3_role P i with rfl | rfl | rfl
    · simp only [n10, if_false, if_true, e]
    · simp only [n10, n20, n21, if_false, if_true, h12]
    · simp only [n20, n21, if_false, if_true, h20]
  · intro j hj
    have hX := hx j hj
    have hs : x.snd (P + 2) j + (x.fst (P + 1) j + x.snd (P + 1) j) = X j := by
      have h1 := hX.1 (P + 1)
      have h2 := hX.1 (P + 2)
      have h3 := hX.2
      rw [total_role P] at h3
      rw [h12] at h1
      rw [h20] at h2
      simp only [elem] at h1 h2 h3
      rw [h1, h2, ← h3]; ring
    have ht : ∀ g : Fin 3 → BitVec w, xorAll g = g P ^^^ g (P + 1) ^^^ g (P + 2) := by
      intro g
      rw [xorAll3]
      rcases fin3_cases P with rfl | rfl | rfl
      · rfl
      · show _ = g 1 ^^^ g 2 ^^^ g 0; ac_rfl
      · show _ = g 2 ^^^ g 0 ^^^ g 1; ac_rfl
    rw [ht]
    simp only [n10, n20, n21, if_false, if_true, e]
    have key : rr j - one r 0 (P + 1) j + x.snd (P + 2) j + (one r 0 (P + 1) j + (x.fst (P + 1) j + x.snd (P + 1) j)) =
        rr j + X j := by rw [← hs]; ring
    rw [key]
    have : rr j ^^^ one r 1 (P + 1) j ^^^ one r 2 (P + 1) j ^^^ (~~~(rr j + X j ^^^ one r 1 (P + 1) j) ^^^ one r 2 (P + 1) j) =
        ~~~ (rr j ^^^ (rr j + X j)) := by
      refine BitVec.eq_of_getLsbD_eq fun i hi => ?_
      simp only [BitVec.getLsbD_xor, BitVec.getLsbD_not, hi, decide_true, Bool.true_and]
      generalize (rr j).getLsbD i = b0
      generalize (rr j + X j).getLsbD i = b1
      generalize (one r 1 (P + 1) j).getLsbD i = b2
      generalize (one r 2 (P + 1) j).getLsbD i = b3
      revert b0 b1 b2 b3; decide
    rw [this]
    constructor
    · intro h
      have h0 : rr j ^^^ (rr j + X j) = 0#w := by
        have := congrArg (fun y => ~~~ y) h
        simpa using this
      have h1 : rr j = rr j + X j := BitVec.xor_eq_zero_iff.1 h0
      have : rr j + X j = rr j + 0 := by rw [← h1]; simp
      exact add_left_cancel this
    · intro h
      rw [h]
      simp

theorem eqzWith_ok (hE : EnvOk3 E Inv) {K : ℕ} (hwK : w = 2 ^ K) (hK : 3 ≤ K) (N : ℕ) {x : Sh (Arr w)}
    {X : ℕ → BitVec w} (hx : ∀ j, j < N → Opens (elem x j) (X j)) (P : Fin 3) :
    Ok Inv (eqzWith E N x P (P + 1) (P + 2)) (fun z => ∀ j, j < N →
      BRep3 (elemB z j) (BitVec.ofNat w (decide (X j = 0)).toNat)) := by
  obtain ⟨t, rfl⟩ : ∃ t, K = t + 3 := ⟨K - 3, by omega⟩
  have hw8 : w / 8 = 2 ^ t := by
    rw [hwK, pow_add]; omega
  have hpos : 0 < 2 ^ t := Nat.two_pow_pos t
  have hw : w = 8 * 2 ^ t := by rw [hwK, pow_add]; ring
  refine Ok.bind (eqzFlag_ok hE N hx P) fun z hz => ?_
  have hb : Repl (mapSh byteAt z) := fun i => by
    show byteAt (z.snd i) = byteAt (z.fst (i + 1))
    rw [hz.1 i]
  have hl := eqzLoop3_ok hE N (fun j => X j = 0) t hb fun j hj => ?_
  · rw [hw8]
    have hl' : Ok Inv (eqzLoop3 E N (2 ^ t) w (mapSh byteAt z)) _ :=
      Eq.mpr (congrArg (fun c => Ok Inv (eqzLoop3 E N (2 ^ t) c (mapSh byteAt z)) _) hwK) hl
    refine Ok.bind hl' fun y hy => Ok.pure (P := fun a : BArr => ∀ j, j < N → BRep3 (elemB a j) (BitVec.ofNat w (decide (X j = 0)).toNat))
      fun j hj => ?_
    obtain ⟨h0, h1⟩ := hy.2 j hj
    have hbit : ∀ (b : Bool) i, (BitVec.ofNat w b.toNat).getLsbD i = (b && decide (i = 0)) := by
      intro b i
      rw [BitVec.getLsbD_ofNat]
      cases b
      · simp
      · rcases i with _ | i
        · simp; omega
        · simp [Nat.testBit_succ]
    refine ⟨fun i => congrFun (hy.1 i) j, ?_, ?_, ?_, by rfl⟩
    · show byteTot y j = BitVec.setWidth 8 _
      refine BitVec.eq_of_getLsbD_eq fun i hi => ?_
      rw [setWidth_bit, hbit]
      rcases i with _ | i
      · by_cases hX : X j = 0
        · simp [hX, h0.2 hX]
        · have : (byteTot y j).getLsbD 0 = false := by
            rw [← Bool.not_eq_true]; exact fun h => hX (h0.1 h)
          rw [this, decide_eq_false hX]; simp
      · rw [h1 _ (by omega)]; simp
    · show (BitVec.ofNat w _).toNat < 2 ^ 8
      rw [BitVec.toNat_ofNat]
      refine lt_of_le_of_lt (Nat.mod_le _ _) ?_
      exact lt_of_le_of_lt (Bool.toNat_le _) (by norm_num)
    · show 8 ≤ w
      omega
  · rw [← hz.2 j hj]
    have hbit : ∀ i, i < 2 ^ t → ∀ k, k < 8 → (byteTot (mapSh byteAt z) (j * 2 ^ t + i)).getLsbD k =
        (xorAll fun i => z.fst i j).getLsbD (8 * i + k) := by
      intro i hi k hk
      have hd : (j * 2 ^ t + i) / 2 ^ t = j := by
        rw [mul_comm, Nat.mul_add_div hpos, Nat.div_eq_of_lt hi, add_zero]
      have hm : (j * 2 ^ t + i) % 2 ^ t = i := by
        rw [mul_comm, Nat.mul_add_mod, Nat.mod_eq_of_lt hi]
      have e : byteTot (mapSh byteAt z) (j * 2 ^ t + i) = ((xorAll fun i => z.fst i j) >>> (8 * i)).setWidth 8 := by
        simp only [byteTot, mapSh, byteAt, hw8, hd, hm]
        exact xorAll_map (xlin_comp (g := fun x : BitVec w => x.setWidth 8) (f := fun x : BitVec w => x >>> (8 * i))
          xlin_setWidth xlin_shr) (fun q => z.fst q j)
      rw [e, setWidth_bit, BitVec.getLsbD_ushiftRight]
      simp [hk]
    constructor
    · intro H
      refine BitVec.eq_of_getLsbD_eq fun q hq => ?_
      have := H (q / 8) (by omega) (q % 8) (by omega)
      rw [hbit _ (by omega) _ (by omega), show 8 * (q / 8) + q % 8 = q by omega] at this
      rw [this, BitVec.getLsbD_allOnes]; simp [hq]
    · intro H i hi k hk
      rw [hbit i hi k hk, H, BitVec.getLsbD_allOnes]
      simp; omega

/-- Equality to zero: every element becomes a sharing of 1 or 0. -/
theorem c29_eqz (hE : EnvOk3 E Inv) (hp : PivotOk E Inv) {K : ℕ} (hwK : w = 2 ^ K) (hK : 3 ≤ K) (N : ℕ)
    {x : Sh (Arr w)} {X : ℕ → BitVec w} (hx : ∀ j, j < N → Opens (elem x j) (X j)) :
    Ok Inv (eqz3 E N x) (fun z => ∀ j, j < N → BRep3 (elemB z j) (BitVec.ofNat w (decide (X j = 0)).toNat)) :=
  pivoted_ok hp fun P => eqzWith_ok hE hwK hK N hx P

theorem equalAA_elem {N : ℕ} {x y : Sh (Arr w)} {X Y : ℕ → BitVec w} (hx : ∀ j, j < N → Opens (elem x j) (X j))
    (hy : ∀ j, j < N → Opens (elem y j) (Y j)) (j : ℕ) (hj : j < N) :
    Opens (elem (zipSh (fun a b j => a j - b j) x y) j) (X j - Y j) := by
  obtain ⟨h1, h2⟩ := hx j hj
  obtain ⟨h3, h4⟩ := hy j hj
  refine ⟨fun i => ?_, ?_⟩
  · have := h1 i
    have := h3 i
    simp only [elem, zipSh] at *
    simp only [*]
  · rw [← h2, ← h4, total3, total3, total3]
    simp only [elem, zipSh]; ring

theorem equalAP_elem {N : ℕ} {x : Sh (Arr w)} {X : ℕ → BitVec w} (hx : ∀ j, j < N → Opens (elem x j) (X j))
    (p : Arr w) (j : ℕ) (hj : j < N) :
    Opens (elem (⟨fun i j => if i = 1 then x.fst i j - p j else x.fst i j,
      fun i j => if i = 0 then x.snd i j - p j else x.snd i j⟩ : Sh (Arr w)) j) (X j - p j) := by
  obtain ⟨h1, h2⟩ := hx j hj
  obtain ⟨a0, a1, a2⟩ := repl3.1 h1
  refine ⟨repl3.2 ?_, ?_⟩
  · simp only [elem] at *
    exact ⟨by simp [a0], by simp [a1], by simp [a2]⟩
  · rw [← h2, total3, total3]
    simp [elem]; ring

/-- Equality of two shared arrays. -/
theorem c29_equal_aa (hE : EnvOk3 E Inv) (hp : PivotOk E Inv) {K : ℕ} (hwK : w = 2 ^ K) (hK : 3 ≤ K) (N : ℕ)
    {x y : Sh (Arr w)} {X Y : ℕ → BitVec w} (hx : ∀ j, j < N → Opens (elem x j) (X j))
    (hy : ∀ j, j < N → Opens (elem y j) (Y j)) :
    Ok Inv (equalAA3 E N x y) (fun z => ∀ j, j < N →
      BRep3 (elemB z j) (BitVec.ofNat w (decide (X j = Y j)).toNat)) :=
  Ok.imp (c29_eqz hE hp hwK hK N (equalAA_elem hx hy)) fun z hz j hj => by
    have := hz j hj
    simpa only [sub_eq_zero] using this

/-- Equality of a shared and a public array. -/
theorem c29_equal_ap (hE : EnvOk3 E Inv) (hp : PivotOk E Inv) {K : ℕ} (hwK : w = 2 ^ K) (hK : 3 ≤ K) (N : ℕ)
    {x : Sh (Arr w)} {X : ℕ → BitVec w} (hx : ∀ j, j < N → Opens (elem x j) (X j)) (p : Arr w) :
    Ok Inv (equalAP3 E N x p) (fun z => ∀ j, j < N →
      BRep3 (elemB z j) (BitVec.ofNat w (decide (X j = p j)).toNat)) :=
  Ok.imp (c29_eqz hE hp hwK hK N (equalAP_elem hx p)) fun z hz j hj => by
    have := hz j hj
    simpa only [sub_eq_zero] using this

/-- Equality for every randomness, if it finishes. -/
theorem c29_equal_finished (hE : EnvOk3 E Inv) {K : ℕ} (hwK : w = 2 ^ K) (hK : 3 ≤ K) (N : ℕ)
    {x y : Sh (Arr w)} {X Y : ℕ → BitVec w} (hx : ∀ j, j < N → Opens (elem x j) (X j))
    (hy : ∀ j, j < N → Opens (elem y j) (Y j)) (p : Arr w) :
    Part Inv (equalAA3 E N x y) (fun z => ∀ j, j < N →
      BRep3 (elemB z j) (BitVec.ofNat w (decide (X j = Y j)).toNat)) ∧
    Part Inv (equalAP3 E N x p) (fun z => ∀ j, j < N →
      BRep3 (elemB z j) (BitVec.ofNat w (decide (X j = p j)).toNat)) := by
  constructor
  · refine Part.imp (pivoted_part hE fun P => eqzWith_ok hE hwK hK N (equalAA_elem hx hy) P) fun z hz j hj => ?_
    have := hz j hj
    simpa only [sub_eq_zero] using this
  · refine Part.imp (pivoted_part hE fun P => eqzWith_ok hE hwK hK N (equalAP_elem hx p) P) fun z hz j hj => ?_
    have := hz j hj
    simpa only [sub_eq_zero] using this

/-! ### Examples -/

example : (a2b3 aby3DemoEnv (toSharesA (-21 : BitVec 8) ![100, 3, 0]) aby3DemoStart).map
    (fun p => (b2p (w := 8) p.1 2, p.1.nb)) = some (-21, 8) := by decide +kernel
example : (msbA2B3 aby3DemoEnv (toSharesA (-21 : BitVec 8) ![100, 3, 0]) aby3DemoStart).map
    (fun p => (b2p (w := 8) p.1 2, p.1.nb)) = some (1, 1) := by decide +kernel
example : (b2aPPA aby3DemoEnv aby3DemoB aby3DemoStart).map (fun p => a2p (R := BitVec 8) p.1 1) = some 6 := by
  decide +kernel
example : (b2aSelect aby3DemoEnv aby3DemoB aby3DemoStart).map (fun p => a2p (R := BitVec 8) p.1 1) = some 6 := by
  decide +kernel
/-- two 3-bit elements: 6 and 1 -/
def aby3DemoBArr : BArr := ⟨8, 3, ⟨fun i j => ![5, 1, if j = 0 then 2 else 5] i, fun i j => ![1, if j = 0 then 2 else 5, 5] i⟩⟩
example : showArr (b2aOT (w := 8) aby3DemoEnv 2 aby3DemoBArr aby3DemoStart) = some [6, 1] := by decide +kernel
example : ∀ j, j < 2 → BRep3 (w := 8) (elemB aby3DemoBArr j) (if j = 0 then 6 else 1) := by
  intro j hj
  have : j = 0 ∨ j = 1 := by omega
  rcases this with rfl | rfl <;>
  exact ⟨repl3.2 (by decide +kernel), by decide +kernel, by decide +kernel, by decide +kernel, by decide +kernel⟩
/-- of the two elements 37, -21 the second one is -21 -/
example : (equalAP3 aby3DemoEnv 2 aby3DemoArr (fun _ => -21) aby3DemoStart).map
    (fun p => [b2p (w := 8) (elemB p.1 0) 0, b2p (w := 8) (elemB p.1 1) 0]) = some [0, 1] := by decide +kernel
example : (equalAA3 aby3DemoEnv 2 aby3DemoArr aby3DemoArr aby3DemoStart).map
    (fun p => [b2p (w := 8) (elemB p.1 0) 0, b2p (w := 8) (elemB p.1 1) 0]) = some [1, 1] := by decide +kernel
/-- 16-bit words: two rounds over bytes and three over bits -/
example : (equalAP3 (w := 16) aby3DemoEnv 2
    ⟨fun i j => (toSharesA (if j = 0 then 0x1234 else 0x1200 : BitVec 16) ![100, 20000, 0]).fst i,
     fun i j => (toSharesA (if j = 0 then 0x1234 else 0x1200 : BitVec 16) ![100, 20000, 0]).snd i⟩
    (fun _ => 0x1234) aby3DemoStart).map
    (fun p => [b2p (w := 16) (elemB p.1 0) 0, b2p (w := 16) (elemB p.1 1) 0]) = some [1, 0] := by decide +kernel

end Spu.Props

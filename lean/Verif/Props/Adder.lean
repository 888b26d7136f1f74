import Verif.Lemmas.Gates
import Verif.Props.Bits

set_option autoImplicit false

/-! # C15: adders and carry circuits of `mpc/ab_api.cc` -/

namespace Spu.Props
open Spu.Model.Circ Spu.Model.Bits Spu.Spec Spu.Lemmas

section
variable {σ T : Type} {w : ℕ} {C : Gates σ T w} {Inv : σ → Prop} {Rep : T → BitVec w → Prop}

theorem vand2_ok (S : Sound C Inv Rep) {a b c d : T} {x y z t : BitVec w} (ha : Rep a x) (hb : Rep b y)
    (hc : Rep c z) (hd : Rep d t) (nab : C.nb a = C.nb b) (ncd : C.nb c = C.nb d) :
    Ok Inv (vand2 C a b c d) (fun r => Rep r.1 (x &&& z) ∧ Rep r.2 (y &&& t) ∧
      C.nb r.1 = min (C.nb a) (C.nb c) ∧ C.nb r.2 = min (C.nb b) (C.nb d)) :=
  Ok.enforce (by simpa using nab) (Ok.enforce (by simpa using ncd) (Ok.bind (S.and ha hc) fun _ ⟨h0, n0⟩ =>
    Ok.bind (S.and hb hd) fun _ ⟨h1, n1⟩ => Ok.pure ⟨h0, h1, n0, n1⟩))

theorem koggeRound_ok (S : Sound C Inv Rep) {P G : T} {p g : BitVec w} {idx N : ℕ} (hP : Rep P p)
    (hG : Rep G g) (hi : 2 ^ idx < w) (hN0 : 0 < N) (nP : C.nb P = N) (nG : C.nb G = N) :
    Ok Inv (koggeRound C (P, G) idx) (fun r => Rep r.1 (p &&& p <<< 2 ^ idx) ∧
      Rep r.2 (g ^^^ (p &&& g <<< 2 ^ idx)) ∧ C.nb r.1 = N ∧ C.nb r.2 = N) := by
  have hN : N ≤ w := nP ▸ S.nb_le hP
  refine Ok.bind (S.shl hG hi (.inl (nG ▸ hN0))) fun G1 ⟨hG1, nG1⟩ =>
    Ok.bind (S.shl hP hi (.inl (nP ▸ hN0))) fun P1 ⟨hP1, nP1⟩ =>
    Ok.bind (vand2_ok S hP hP hP1 hG1 rfl (by rw [nP1, nG1, nP, nG])) fun ⟨r0, r1⟩ ⟨h0, h1, n0, n1⟩ =>
    Ok.bind (S.xor hG h1) fun G' ⟨h2, n2⟩ => Ok.pure ⟨h0, h2, ?_, ?_⟩
  · show C.nb r0 = _
    change C.nb r0 = _ at n0
    rw [n0, nP1, nP]; exact min_eq_left (le_min (Nat.le_add_right _ _) hN)
  · show C.nb G' = _
    change C.nb r1 = _ at n1
    rw [n2, n1, nG1, nG, nP]; rw [min_eq_left (le_min (Nat.le_add_right _ _) hN), max_self]

/-- Kogge-Stone adder of `ab_api.cc`: shares of `x` and `y` with declared bit counts `nbits` give a share
of `x + y` (mod `2^w`), with one more declared bit. -/
theorem c15_ppa_kogge_stone (S : Sound C Inv Rep) (hw : 1 < w) {a b : T} {x y : BitVec w} {nbits : ℕ}
    (ha : Rep a x) (hb : Rep b y) (na : C.nb a = nbits) (nb : C.nb b = nbits) :
    Ok Inv (ppaKoggeStone C a b nbits) (fun c => Rep c (x + y) ∧ C.nb c = min (nbits + 1) w) := by
  have hN : nbits ≤ w := na ▸ S.nb_le ha
  have hx : x.toNat < 2 ^ nbits := na ▸ S.lt ha
  have hy : y.toNat < 2 ^ nbits := nb ▸ S.lt hb
  refine Ok.bind (S.xor ha hb) fun P ⟨hP, nP⟩ => Ok.bind (S.and ha hb) fun G ⟨hG, nG⟩ => ?_
  refine Ok.bind (Ok.foldl_range (fun l (PG : T × T) => ∃ p g, Rep PG.1 p ∧ Rep PG.2 g ∧
    C.nb PG.1 = nbits ∧ C.nb PG.2 = nbits ∧ Kogge x y l p g)
    ⟨_, _, hP, hG, by show C.nb P = _; omega, by show C.nb G = _; omega, kogge_init x y⟩ ?_) ?_
  · rintro k hk ⟨P, G⟩ ⟨p, g, hP, hG, nP, nG, hK⟩
    have hkn := pow_lt_of_lt_log2Ceil hk
    exact Ok.imp (koggeRound_ok S hP hG (lt_of_lt_of_le hkn hN) (Nat.zero_lt_of_lt hkn) nP nG)
      fun r ⟨h1, h2, n1, n2⟩ => ⟨_, _, h1, h2, n1, n2, kogge_step hK⟩
  · rintro ⟨P', G'⟩ ⟨p, g, hP', hG', nP', nG', hK⟩
    change C.nb G' = nbits at nG'
    refine Ok.bind (S.shl hG' hw (.inr (by norm_num))) fun c ⟨hc, nc⟩ => Ok.bind (S.xor ha hb) fun s ⟨hs, ns⟩ => ?_
    refine Ok.imp (S.xor hs hc) fun r ⟨hr, nr⟩ => ⟨?_, by rw [nr, nc, ns]; show max _ (min (C.nb G' + 1) w) = _; omega⟩
    have e : x + y = x ^^^ y ^^^ g <<< 1 := by
      refine BitVec.eq_of_getLsbD_eq fun i hi => ?_
      rw [add_bit x y hi]
      simp only [BitVec.getLsbD_xor, BitVec.getLsbD_shiftLeft, hi, decide_true, Bool.true_and]
      congr 1
      rcases i with _ | i
      · simp
      · simp only [show ¬ i + 1 < 1 by omega, decide_false, Bool.not_false, Bool.true_and,
          Nat.add_sub_cancel]
        by_cases hn : i < nbits
        · exact (kogge_final hK (by omega) (lt_of_lt_of_le hn (le_pow_log2Ceil nbits))).symm
        · have hg : g.toNat < 2 ^ nbits := nG' ▸ S.lt hG'
          rw [cy_succ, bit_of_lt hx (by omega), bit_of_lt hy (by omega), bit_of_lt hg (by omega)]
          rfl
    rw [e]; exact hr

/-- `add_bb` of shares with equal declared bit counts is addition. -/
theorem c15_add_bb (S : Sound C Inv Rep) (hw : 1 < w) {a b : T} {x y : BitVec w}
    (ha : Rep a x) (hb : Rep b y) (hn : C.nb a = C.nb b) :
    Ok Inv (addBB C a b) (fun c => Rep c (x + y) ∧ C.nb c = min (C.nb a + 1) w) :=
  Ok.enforce (by simpa using hn) (c15_ppa_kogge_stone S hw ha hb rfl hn.symm)

/-- `add_bb` rejects operands with different declared bit counts. -/
theorem c15_add_bb_rejects {a b : T} (hn : C.nb a ≠ C.nb b) (s : σ) : addBB C a b s = none := by
  simp [addBB, enforce, hn, failure, StateT.failure, Bind.bind, StateT.bind]

/-! ## carry -/

/-- carry out of the first `n` positions described by generate bits `g` and propagate bits `p` -/
def genCarry (g p : ℕ → Bool) : ℕ → Bool
  | 0 => false
  | n + 1 => g n ^^ (p n && genCarry g p n)

theorem genCarry_cy (x y : BitVec w) (n : ℕ) :
    genCarry (x &&& y).getLsbD (x ^^^ y).getLsbD n = cy x y n := by
  induction n with
  | zero => exact (cy_zero x y).symm
  | succ n ih => rw [genCarry, ih, cy_succ]; simp

theorem genCarry_congr {g p g' p' : ℕ → Bool} {n : ℕ} (hg : ∀ i, i < n → g i = g' i)
    (hp : ∀ i, i < n → p i = p' i) : genCarry g p n = genCarry g' p' n := by
  induction n with
  | zero => rfl
  | succ n ih =>
    rw [genCarry, genCarry, hg n (by omega), hp n (by omega), ih (fun i hi => hg i (by omega))
      (fun i hi => hp i (by omega))]

/-- combining neighbouring positions halves the length -/
theorem genCarry_pair {g p g' p' : ℕ → Bool} {n : ℕ}
    (hg : ∀ i, i < n → g' i = (g (2 * i + 1) ^^ (g (2 * i) && p (2 * i + 1))))
    (hp : ∀ i, i < n → p' i = (p (2 * i) && p (2 * i + 1))) : genCarry g' p' n = genCarry g p (2 * n) := by
  induction n with
  | zero => rfl
  | succ n ih =>
    rw [genCarry, hg n (by omega), hp n (by omega), ih (fun i hi => hg i (by omega)) (fun i hi => hp i (by omega)),
      show 2 * (n + 1) = 2 * n + 1 + 1 by ring, genCarry, genCarry]
    cases g (2 * n + 1) <;> cases p (2 * n + 1) <;> cases g (2 * n) <;> cases p (2 * n) <;>
      cases genCarry g p (2 * n) <;> rfl

/-- a zero pair below everything changes nothing -/
theorem genCarry_shift {g p g' p' : ℕ → Bool} {n : ℕ} (h0 : g' 0 = false)
    (hg : ∀ i, i < n → g' (i + 1) = g i) (hp : ∀ i, i < n → p' (i + 1) = p i) :
    genCarry g' p' (n + 1) = genCarry g p n := by
  induction n with
  | zero => simp [genCarry, h0]
  | succ n ih =>
    rw [genCarry, hg n (by omega), hp n (by omega), ih (fun i hi => hg i (by omega)) (fun i hi => hp i (by omega))]
    rfl

theorem mask_bit {k i : ℕ} (hk : k < 128) : ((1 : BitVec 128) <<< k - 1).getLsbD i = decide (i < k) := by
  have h1 : 2 ^ k < 2 ^ 128 := Nat.pow_lt_pow_right (by norm_num) hk
  have h0 : 0 < 2 ^ k := Nat.two_pow_pos k
  have e : ((1 : BitVec 128) <<< k - 1).toNat = 2 ^ k - 1 := by
    rw [BitVec.toNat_sub, BitVec.toNat_shiftLeft]
    rw [show (1 : BitVec 128).toNat = 1 from rfl, Nat.shiftLeft_eq, one_mul, Nat.mod_eq_of_lt h1]
    generalize 2 ^ k = d at h0 h1 ⊢
    omega
  unfold BitVec.getLsbD
  rw [e, Nat.testBit_two_pow_sub_one]

theorem bitWidth_mask {k : ℕ} (hk : k < 128) (hkw : k ≤ w) :
    bitWidth (((1 : BitVec 128) <<< k - 1).setWidth w) = k := by
  unfold bitWidth
  have hb : ∀ i, (((1 : BitVec 128) <<< k - 1).setWidth w).getLsbD i = decide (i < k) := by
    intro i
    rw [BitVec.getLsbD_setWidth, mask_bit hk]
    by_cases h : i < k
    · simp [h]; omega
    · simp [h]
  refine le_antisymm (Nat.size_le.2 (lt_of_bits fun i hi => ?_)) ?_
  · rw [hb]; simpa using hi
  · rcases k with _ | k
    · omega
    · have := hb k
      simp only [BitVec.getLsbD, show k < k + 1 by omega, decide_true] at this
      exact Nat.lt_size.2 (Nat.ge_two_pow_of_testBit this)

theorem singleBit_pow (m : ℕ) : singleBit (2 ^ m) = true := by
  have h : 2 ^ m &&& (2 ^ m - 1) = 0 := by
    refine Nat.eq_of_testBit_eq fun i => ?_
    rw [Nat.testBit_and, Nat.testBit_two_pow, Nat.testBit_two_pow_sub_one, Nat.zero_testBit]
    by_cases h : m = i
    · subst h; simp
    · simp [h]
  simp [singleBit, h]

/-- `bit_scatter` of a `2^(m+1)`-bit share: the odd and the even groups of `2^s` bits -/
theorem bitScatter_ok (S : Sound C Inv Rep) {M : ℕ} (hwM : w = 2 ^ M) (h128 : w ≤ 128) {a : T}
    {x : BitVec w} {m s : ℕ} (hs : s ≤ m) (ha : Rep a x) (hn : C.nb a = 2 ^ (m + 1)) :
    Ok Inv (bitScatter C a s) (fun r => ∃ h l, Rep r.1 h ∧ Rep r.2 l ∧ C.nb r.1 = 2 ^ m ∧ C.nb r.2 = 2 ^ m ∧
      (∀ q, q < 2 ^ m → h.getLsbD q = x.getLsbD ((2 * (q / 2 ^ s) + 1) * 2 ^ s + q % 2 ^ s)) ∧
      (∀ q, q < 2 ^ m → l.getLsbD q = x.getLsbD (2 * (q / 2 ^ s) * 2 ^ s + q % 2 ^ s))) := by
  have hw : 0 < w := by rw [hwM]; exact Nat.two_pow_pos M
  have hle : 2 ^ (m + 1) ≤ w := hn ▸ S.nb_le ha
  have hdvd : 2 ^ (m + 1) ∣ w := by
    rw [hwM] at hle ⊢
    exact pow_dvd_pow 2 ((Nat.pow_le_pow_iff_right (by norm_num)).1 hle)
  have e2 : 2 ^ (m + 1) = 2 ^ m + 2 ^ m := by rw [pow_succ]; ring
  have hm0 : 0 < 2 ^ m := Nat.two_pow_pos m
  have hmw : 2 ^ m < w := by omega
  have h2 : 2 ^ (m + 1) / 2 = 2 ^ m := by omega
  obtain ⟨r, hr, hbits⟩ := c14_deintl h128 hw hdvd hs x
  unfold bitScatter
  simp only [hn, h2]
  refine Ok.enforce (singleBit_pow _) (Ok.bind (S.deintl ha hn hr) fun o ⟨ho, no⟩ =>
    Ok.bind (S.shr ho hmw (.inl (by omega))) fun hi ⟨hhi, nhi⟩ => Ok.bind (S.andP _ ho) fun lo ⟨hlo, nlo⟩ =>
    Ok.pure ⟨_, _, hhi, hlo, ?_, ?_, fun q hq => ?_, fun q hq => ?_⟩)
  · rw [nhi, no, hn, e2]; omega
  · rw [nlo, no, hn, e2, bitWidth_mask (by omega) (by omega)]; omega
  · have := hbits 0 1 q (by norm_num) hq (by omega)
    simp only [Nat.zero_mul, Nat.zero_add, Nat.one_mul] at this
    rw [BitVec.getLsbD_ushiftRight, this]
  · have := hbits 0 0 q (by norm_num) hq (by omega)
    simp only [Nat.zero_mul, Nat.zero_add, Nat.add_zero] at this
    rw [BitVec.getLsbD_and, this, BitVec.getLsbD_setWidth, mask_bit (by omega)]
    simp [hq]
    omega

/-- the reduction loop of `carry_a2b` on `2^j` positions -/
theorem carryLoop_pow (S : Sound C Inv Rep) {M : ℕ} (hwM : w = 2 ^ M) (h128 : w ≤ 128) :
    ∀ (j : ℕ) {P G : T} {p g : BitVec w}, Rep P p → Rep G g → C.nb P = 2 ^ j → C.nb G = 2 ^ j →
      Ok Inv (carryLoop C P G (2 ^ j)) (fun c =>
        Rep c (BitVec.ofNat w (genCarry g.getLsbD p.getLsbD (2 ^ j)).toNat) ∧ C.nb c = 1) := by
  intro j
  induction j with
  | zero =>
    intro P G p g hP hG nP nG
    rw [carryLoop, dif_neg (by norm_num)]
    refine Ok.pure ⟨?_, by simpa using nG⟩
    have hg : g.toNat < 2 ^ 1 := by have := S.lt hG; rwa [nG] at this
    have e : BitVec.ofNat w (genCarry g.getLsbD p.getLsbD (2 ^ 0)).toNat = g := by
      apply BitVec.eq_of_toNat_eq
      simp only [pow_zero, genCarry, Bool.and_false, Bool.xor_false, BitVec.getLsbD, BitVec.toNat_ofNat]
      have h1 : g.toNat < 2 ^ w := g.isLt
      have h2 : (g.toNat.testBit 0).toNat = g.toNat := by
        rcases (show g.toNat = 0 ∨ g.toNat = 1 by omega) with h | h <;> rw [h] <;> rfl
      rw [h2, Nat.mod_eq_of_lt h1]
    rw [e]; exact hG
  | succ j ih =>
    intro P G p g hP hG nP nG
    have e2 : 2 ^ (j + 1) = 2 * 2 ^ j := by rw [pow_succ]; ring
    have hpos : 0 < 2 ^ j := Nat.two_pow_pos j
    have hodd : ¬ 2 ^ (j + 1) % 2 ≠ 0 := by omega
    rw [carryLoop, dif_pos (by omega)]
    simp only [if_neg hodd]
    refine Ok.bind (P := fun r => r = (P, G)) (Ok.pure rfl) fun r hr => ?_
    subst hr
    refine Ok.bind (bitScatter_ok S hwM h128 (Nat.zero_le _) hP nP) fun ⟨P1, P0⟩
      ⟨p1, p0, hP1, hP0, nP1, nP0, b1, b0⟩ => Ok.bind (bitScatter_ok S hwM h128 (Nat.zero_le _) hG nG)
      fun ⟨G1, G0⟩ ⟨g1, g0, hG1, hG0, nG1, nG0, c1, c0⟩ => ?_
    simp only [pow_zero, Nat.div_one, Nat.mul_one, Nat.mod_one, Nat.add_zero] at b1 b0 c1 c0
    change C.nb P1 = 2 ^ j at nP1
    change C.nb P0 = 2 ^ j at nP0
    change C.nb G1 = 2 ^ j at nG1
    change C.nb G0 = 2 ^ j at nG0
    refine Ok.bind (vand2_ok S hP0 hG0 hP1 hP1 (by rw [nP0, nG0]) rfl) fun ⟨v0, v1⟩ ⟨hv0, hv1, nv0, nv1⟩ =>
      Ok.bind (S.xor hG1 hv1) fun G' ⟨hG', nG'⟩ => ?_
    change C.nb v0 = _ at nv0
    change C.nb v1 = _ at nv1
    change C.nb G' = max (C.nb G1) (C.nb v1) at nG'
    rw [show 2 ^ (j + 1) / 2 = 2 ^ j by omega]
    refine Ok.imp (ih hv0 hG' (by rw [nv0, nP0, nP1, min_self]) (by rw [nG', nv1, nG1, nG0, nP1, min_self, max_self]))
      fun c ⟨hc, nc⟩ => ⟨?_, nc⟩
    rw [genCarry_pair (g := g.getLsbD) (p := p.getLsbD)] at hc
    · rw [e2]; exact hc
    · intro i hi
      rw [BitVec.getLsbD_xor, BitVec.getLsbD_and, c1 i hi, c0 i hi, b1 i hi]
    · intro i hi
      rw [BitVec.getLsbD_and, b0 i hi, b1 i hi]

theorem cy_carryOut (x y : BitVec w) (k : ℕ) : (cy x y k).toNat = carryOut x.toNat y.toNat k := by
  have h0 : 0 < 2 ^ k := Nat.two_pow_pos k
  have h1 := Nat.mod_lt x.toNat h0
  have h2 := Nat.mod_lt y.toNat h0
  unfold cy BitVec.carry carryOut
  simp only [Bool.toNat_false, Nat.add_zero]
  by_cases h : x.toNat % 2 ^ k + y.toNat % 2 ^ k ≥ 2 ^ k
  · rw [decide_eq_true h, Nat.div_eq_sub_div h0 h, Nat.div_eq_of_lt (by omega)]; rfl
  · rw [decide_eq_false h, Nat.div_eq_of_lt (by omega)]; rfl

/-- `carry_a2b` over all `k = 2^j` declared bits of the operands returns the carry out. -/
theorem c15_carry_a2b (S : Sound C Inv Rep) {M j : ℕ} (hwM : w = 2 ^ M) (h128 : w ≤ 128) {a b : T}
    {x y : BitVec w} (ha : Rep a x) (hb : Rep b y) (na : C.nb a = 2 ^ j) (nb : C.nb b = 2 ^ j) :
    Ok Inv (carryA2B C a b (2 ^ j)) (fun c =>
      Rep c (BitVec.ofNat w (carryOut x.toNat y.toNat (2 ^ j))) ∧ C.nb c = 1) := by
  refine Ok.bind (S.xor ha hb) fun P ⟨hP, nP⟩ => Ok.bind (S.and ha hb) fun G ⟨hG, nG⟩ => ?_
  refine Ok.imp (carryLoop_pow S hwM h128 j hP hG (by rw [nP, na, nb, max_self]) (by rw [nG, na, nb, min_self]))
    fun c ⟨hc, nc⟩ => ⟨?_, nc⟩
  rw [← cy_carryOut, ← genCarry_cy]; exact hc

/-- `carry_a2b` as the sign extraction uses it: full-width operands, `k = w - 1`: the carry into the
top bit. -/
theorem c15_carry_a2b_top (S : Sound C Inv Rep) {M : ℕ} (hM : 2 ≤ M) (hwM : w = 2 ^ M) (h128 : w ≤ 128)
    {a b : T} {x y : BitVec w} (ha : Rep a x) (hb : Rep b y) (na : C.nb a = w) (nb : C.nb b = w) :
    Ok Inv (carryA2B C a b (w - 1)) (fun c =>
      Rep c (BitVec.ofNat w (carryOut x.toNat y.toNat (w - 1))) ∧ C.nb c = 1) := by
  have h4 : 4 ≤ w := by rw [hwM]; calc 4 = 2 ^ 2 := rfl
    _ ≤ 2 ^ M := Nat.pow_le_pow_right (by norm_num) hM
  obtain ⟨N, rfl⟩ : ∃ N, M = N + 1 := ⟨M - 1, by omega⟩
  have e2 : 2 ^ (N + 1) = 2 * 2 ^ N := by rw [pow_succ]; ring
  have hpos : 0 < 2 ^ N := Nat.two_pow_pos N
  refine Ok.bind (S.xor ha hb) fun P ⟨hP, nP⟩ => Ok.bind (S.and ha hb) fun G ⟨hG, nG⟩ => ?_
  have hodd : (w - 1) % 2 ≠ 0 := by omega
  have key : ∀ {P G : T} {p g : BitVec w}, Rep P p → Rep G g → C.nb P = w → C.nb G = w →
      Ok Inv (carryLoop C P G w) (fun c =>
        Rep c (BitVec.ofNat w (genCarry g.getLsbD p.getLsbD w).toNat) ∧ C.nb c = 1) := by
    intro P G p g hP hG nP nG
    have := carryLoop_pow S hwM h128 (N + 1) hP hG (by rw [nP, ← hwM]) (by rw [nG, ← hwM])
    rwa [← hwM] at this
  rw [carryLoop, dif_pos (by omega)]
  simp only [if_pos hodd, show w - 1 + 1 = w by omega]
  simp only [pure_bind]
  refine Ok.bind (S.shl hP (by omega) (.inr (by norm_num))) fun P' ⟨hP', nP'⟩ =>
    Ok.bind (S.shl hG (by omega) (.inr (by norm_num))) fun G' ⟨hG', nG'⟩ => ?_
  replace nP' : C.nb P' = w := by omega
  replace nG' : C.nb G' = w := by omega
  have hk := key hP' hG' nP' nG'
  rw [carryLoop, dif_pos (by omega), if_neg (by omega)] at hk
  simp only [show ¬ w % 2 ≠ 0 by omega, if_false, pure_bind] at hk
  refine Ok.imp hk fun c ⟨hc, nc⟩ => ⟨?_, nc⟩
  rw [← cy_carryOut, ← genCarry_cy,
    ← genCarry_shift (g' := ((x &&& y) <<< 1).getLsbD) (p' := ((x ^^^ y) <<< 1).getLsbD),
    show w - 1 + 1 = w by omega]
  · exact hc
  · simp
  · intro i hi; simp only [BitVec.getLsbD_shiftLeft]; simp; omega
  · intro i hi; simp only [BitVec.getLsbD_shiftLeft]; simp; omega

end

end Spu.Props

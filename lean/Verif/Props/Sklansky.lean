import Verif.Props.Adder

set_option autoImplicit false

/-! # C15: the Sklansky adder of `mpc/ab_api.cc` -/

namespace Spu.Props
open Spu.Model.Circ Spu.Model.Bits Spu.Spec Spu.Lemmas

/-- bits spread from the top of every group of `2^s` bits to its `2^j` upper positions -/
def Spread (s j : ℕ) (l V : ℕ → Bool) : Prop :=
  ∀ g r, r < 2 ^ s → V (g * 2 ^ s + r) = (decide (2 ^ s ≤ r + 2 ^ j) && l (g * 2 ^ s + (2 ^ s - 1)))

theorem spread_step {s j : ℕ} (hj : j < s) {l V V' : ℕ → Bool} (h : Spread s j l V)
    (hV : ∀ q, V' q = (V q ^^ V (2 ^ j + q))) : Spread s (j + 1) l V' := by
  intro g r hr
  obtain ⟨c, rfl⟩ : ∃ c, s = j + c + 1 := ⟨s - j - 1, by omega⟩
  have e : 2 ^ (j + c + 1) = 2 * 2 ^ (j + c) := by rw [pow_succ]; ring
  have hle : 2 ^ j ≤ 2 ^ (j + c) := Nat.pow_le_pow_right (by norm_num) (by omega)
  have e1 : 2 ^ (j + 1) = 2 * 2 ^ j := by rw [pow_succ]; ring
  have hpos : 0 < 2 ^ j := Nat.two_pow_pos j
  rw [hV, h g r hr]
  by_cases h1 : 2 ^ (j + c + 1) ≤ r + 2 ^ j
  · rw [show 2 ^ j + (g * 2 ^ (j + c + 1) + r) = (g + 1) * 2 ^ (j + c + 1) + (r + 2 ^ j - 2 ^ (j + c + 1)) by
        rw [Nat.add_mul]; omega, h (g + 1) _ (by omega)]
    rw [decide_eq_true h1, decide_eq_false (by omega), decide_eq_true (by omega)]
    simp
  · rw [show 2 ^ j + (g * 2 ^ (j + c + 1) + r) = g * 2 ^ (j + c + 1) + (r + 2 ^ j) by omega, h g _ (by omega)]
    rw [decide_eq_false h1, Bool.false_and, Bool.false_xor]
    congr 1
    rw [decide_eq_decide]
    omega

theorem grp_mod {c s r : ℕ} (hr : r < 2 ^ s) : (c * 2 ^ s + r) % 2 ^ s = r := by
  rw [Nat.mul_comm, Nat.mul_add_mod, Nat.mod_eq_of_lt hr]

theorem grp_div {c s r : ℕ} (hr : r < 2 ^ s) : (c * 2 ^ s + r) / 2 ^ s = c := by
  rw [Nat.add_comm, Nat.add_mul_div_right _ _ (Nat.two_pow_pos s), Nat.div_eq_of_lt hr, Nat.zero_add]

theorem grp_lt {s m c r : ℕ} (hs : s ≤ m) (hr : r < 2 ^ s) (h : c * 2 ^ s < 2 ^ m) : c * 2 ^ s + r < 2 ^ m := by
  have e : 2 ^ m = 2 ^ (m - s) * 2 ^ s := by rw [← pow_add]; congr 1; omega
  rw [e] at h ⊢
  have h1 : c < 2 ^ (m - s) := Nat.lt_of_mul_lt_mul_right h
  have h2 : (c + 1) * 2 ^ s ≤ 2 ^ (m - s) * 2 ^ s := Nat.mul_le_mul_right _ (by omega)
  rw [Nat.add_mul, Nat.one_mul] at h2
  omega

theorem grp_half {s m c h r : ℕ} (hs : s ≤ m) (hi : (2 * c + h) * 2 ^ s + r < 2 ^ (m + 1)) : c * 2 ^ s < 2 ^ m := by
  have e : 2 ^ (m + 1) = 2 * 2 ^ (m - s) * 2 ^ s := by rw [Nat.mul_assoc, ← pow_add, pow_succ]; rw [Nat.mul_comm]; congr 2; omega
  have e' : 2 ^ m = 2 ^ (m - s) * 2 ^ s := by rw [← pow_add]; congr 1; omega
  rw [e] at hi
  have h1 : 2 * c + h < 2 * 2 ^ (m - s) := Nat.lt_of_mul_lt_mul_right (a := 2 ^ s) (by omega)
  rw [e']
  exact Nat.mul_lt_mul_of_pos_right (by omega) (Nat.two_pow_pos s)

/-- one round of Sklansky on bit functions -/
theorem skl_step {cyf p g p' g' : ℕ → Bool} {s m : ℕ} (hs : s ≤ m)
    (hI : ∀ i, i < 2 ^ (m + 1) → cyf (i + 1) = (g i ^^ (p i && cyf (i / 2 ^ s * 2 ^ s))))
    (h0 : ∀ c r, r < 2 ^ s → c * 2 ^ s + r < 2 ^ m →
      p' (2 * c * 2 ^ s + r) = p (2 * c * 2 ^ s + r) ∧ g' (2 * c * 2 ^ s + r) = g (2 * c * 2 ^ s + r))
    (h1 : ∀ c r, r < 2 ^ s → c * 2 ^ s + r < 2 ^ m →
      p' ((2 * c + 1) * 2 ^ s + r) = (p ((2 * c + 1) * 2 ^ s + r) && p (2 * c * 2 ^ s + (2 ^ s - 1))) ∧
      g' ((2 * c + 1) * 2 ^ s + r) = (g ((2 * c + 1) * 2 ^ s + r) ^^
        (p ((2 * c + 1) * 2 ^ s + r) && g (2 * c * 2 ^ s + (2 ^ s - 1))))) :
    ∀ i, i < 2 ^ (m + 1) → cyf (i + 1) = (g' i ^^ (p' i && cyf (i / 2 ^ (s + 1) * 2 ^ (s + 1)))) := by
  intro i hi
  have hs0 : 0 < 2 ^ s := Nat.two_pow_pos s
  obtain ⟨r, c, h, hr, hh, rfl⟩ : ∃ r c h, r < 2 ^ s ∧ h < 2 ∧ i = (2 * c + h) * 2 ^ s + r :=
    ⟨i % 2 ^ s, i / 2 ^ s / 2, i / 2 ^ s % 2, Nat.mod_lt _ hs0, Nat.mod_lt _ (by norm_num), by
      rw [Nat.div_add_mod, Nat.div_add_mod']⟩
  have hc := grp_half hs hi
  have hq := grp_lt hs hr hc
  have hb1 : ((2 * c + h) * 2 ^ s + r) / 2 ^ (s + 1) * 2 ^ (s + 1) = 2 * c * 2 ^ s := by
    rw [pow_succ, ← Nat.div_div_eq_div_mul, grp_div hr, show (2 * c + h) / 2 = c by omega]; ring
  have hI' := hI _ hi
  rw [grp_div hr] at hI'
  rw [hb1, hI']
  rcases (show h = 0 ∨ h = 1 by omega) with rfl | rfl
  · obtain ⟨e1, e2⟩ := h0 c r hr hq
    rw [Nat.add_zero, e1, e2]
  · obtain ⟨e1, e2⟩ := h1 c r hr hq
    have e3 : (2 * c + 1) * 2 ^ s = 2 * c * 2 ^ s + 2 ^ s := by ring
    have hlow := hI (2 * c * 2 ^ s + (2 ^ s - 1)) (by omega)
    rw [grp_div (by omega), show 2 * c * 2 ^ s + (2 ^ s - 1) + 1 = (2 * c + 1) * 2 ^ s by omega] at hlow
    rw [e1, e2, hlow]
    cases p ((2 * c + 1) * 2 ^ s + r) <;> simp

section
variable {σ T : Type} {w : ℕ} {C : Gates σ T w} {Inv : σ → Prop} {Rep : T → BitVec w → Prop}

theorem bitGather_ok (S : Sound C Inv Rep) {M : ℕ} (hwM : w = 2 ^ M) (h128 : w ≤ 128) {a b : T}
    {h l : BitVec w} {m s : ℕ} (hs : s ≤ m) (hmw : 2 ^ (m + 1) ≤ w) (ha : Rep a h) (hb : Rep b l)
    (na : C.nb a = 2 ^ m) (nb : C.nb b = 2 ^ m) :
    Ok Inv (bitGather C a b s) (fun c => ∃ r, Rep c r ∧ C.nb c = 2 ^ (m + 1) ∧
      (∀ q, q < 2 ^ m → r.getLsbD ((2 * (q / 2 ^ s) + 1) * 2 ^ s + q % 2 ^ s) = h.getLsbD q) ∧
      (∀ q, q < 2 ^ m → r.getLsbD (2 * (q / 2 ^ s) * 2 ^ s + q % 2 ^ s) = l.getLsbD q)) := by
  have hw : 0 < w := by rw [hwM]; exact Nat.two_pow_pos M
  have hdvd : 2 ^ (m + 1) ∣ w := by
    rw [hwM] at hmw ⊢
    exact pow_dvd_pow 2 ((Nat.pow_le_pow_iff_right (by norm_num)).1 hmw)
  have e2 : 2 ^ (m + 1) = 2 ^ m + 2 ^ m := by rw [pow_succ]; ring
  have hm0 : 0 < 2 ^ m := Nat.two_pow_pos m
  have hl : l.toNat < 2 ^ 2 ^ m := nb ▸ S.lt hb
  obtain ⟨r, hr, hr'⟩ := (c14_inverse h128 hw hdvd s (h <<< 2 ^ m ^^^ l)).2
  obtain ⟨z, hz, hbits⟩ := c14_deintl h128 hw hdvd hs r
  rw [hr', Option.some_inj] at hz
  subst hz
  unfold bitGather
  simp only [na, nb]
  refine Ok.enforce (singleBit_pow _) (Ok.enforce (by simp) (Ok.bind (S.shl ha (by omega) (.inl (by omega))) fun hi ⟨hhi, nhi⟩ =>
    Ok.bind (S.xor hhi hb) fun o ⟨ho, no⟩ => ?_))
  have no' : C.nb o = 2 ^ (m + 1) := by rw [no, nhi, na, nb]; omega
  refine Ok.imp (S.intl ho no' hr) fun c ⟨hc, nc⟩ => ⟨r, hc, by rw [nc, no'], fun q hq => ?_, fun q hq => ?_⟩
  · have := hbits 0 1 q (by norm_num) hq (by omega)
    simp only [Nat.zero_mul, Nat.zero_add, Nat.one_mul] at this
    rw [← this, BitVec.getLsbD_xor, BitVec.getLsbD_shiftLeft, bit_of_lt hl (Nat.le_add_right _ _)]
    simp only [show 2 ^ m + q < w by omega, decide_true, Bool.true_and, Bool.xor_false,
      show ¬ 2 ^ m + q < 2 ^ m by omega, decide_false, Bool.not_false, Nat.add_sub_cancel_left]
  · have := hbits 0 0 q (by norm_num) hq (by omega)
    simp only [Nat.zero_mul, Nat.zero_add, Nat.add_zero] at this
    rw [← this, BitVec.getLsbD_xor, BitVec.getLsbD_shiftLeft]
    simp [hq]

theorem selMask_bit : ∀ s, s < 7 → ∃ M, ppaSelMask[s]? = some M ∧
    ∀ p, p < 128 → M.getLsbD p = decide (p % 2 ^ s = 2 ^ s - 1) := by
  have key : ∀ s : Fin 7, ∀ p : Fin 128,
      (ppaSelMask.getD s.val 0).getLsbD p.val = decide (p.val % 2 ^ s.val = 2 ^ s.val - 1) := by
    decide +kernel
  intro s hs
  have hlen : s < ppaSelMask.length := by simpa [ppaSelMask] using hs
  refine ⟨ppaSelMask[s], by simp [hlen], fun p hp => ?_⟩
  have := key ⟨s, hs⟩ ⟨p, hp⟩
  simpa [List.getD_eq_getElem?_getD, hlen] using this

/-- state of Sklansky after `s` rounds: bit `i` of `(P, G)` summarises the positions of its group of
`2^s` bits up to `i` -/
def Skl (x y : BitVec w) (s N : ℕ) (P G : BitVec w) : Prop :=
  ∀ i, i < N → cy x y (i + 1) = (G.getLsbD i ^^ (P.getLsbD i && cy x y (i / 2 ^ s * 2 ^ s)))

set_option maxHeartbeats 1000000 in
theorem sklanskyRound_ok (S : Sound C Inv Rep) {M : ℕ} (hwM : w = 2 ^ M) (h128 : w ≤ 128) {x y : BitVec w}
    {m s : ℕ} (hs : s ≤ m) {P G : T} {p g : BitVec w} (hP : Rep P p) (hG : Rep G g)
    (nP : C.nb P = 2 ^ (m + 1)) (nG : C.nb G = 2 ^ (m + 1)) (hI : Skl x y s (2 ^ (m + 1)) p g) :
    Ok Inv (sklanskyRound C (P, G) s) (fun r => ∃ p' g', Rep r.1 p' ∧ Rep r.2 g' ∧
      C.nb r.1 = 2 ^ (m + 1) ∧ C.nb r.2 = 2 ^ (m + 1) ∧ Skl x y (s + 1) (2 ^ (m + 1)) p' g') := by
  have hmw : 2 ^ (m + 1) ≤ w := nP ▸ S.nb_le hP
  have e2 : 2 ^ (m + 1) = 2 ^ m + 2 ^ m := by rw [pow_succ]; ring
  have hm0 : 0 < 2 ^ m := Nat.two_pow_pos m
  have hs0 : 0 < 2 ^ s := Nat.two_pow_pos s
  have hsm : 2 ^ s ≤ 2 ^ m := Nat.pow_le_pow_right (by norm_num) hs
  have hm7 : m < 7 := by
    by_contra hc
    have : 2 ^ 7 ≤ 2 ^ m := Nat.pow_le_pow_right (by norm_num) (by omega)
    omega
  have hsdvd : 2 ^ s ∣ w := by
    rw [hwM] at hmw ⊢
    exact pow_dvd_pow 2 (by have := (Nat.pow_le_pow_iff_right (a := 2) (by norm_num)).1 hmw; omega)
  obtain ⟨sm, hsm1, hsmb⟩ := selMask_bit s (by omega)
  have hmb : ∀ q, q < w → (sm.setWidth w).getLsbD q = decide (q % 2 ^ s = 2 ^ s - 1) := by
    intro q hq
    rw [BitVec.getLsbD_setWidth, hsmb q (by omega)]; simp [hq]
  have hbw : bitWidth (sm.setWidth w) = w := by
    refine le_antisymm (Nat.size_le.2 (BitVec.isLt _)) ?_
    have h1 : (sm.setWidth w).getLsbD (w - 1) = true := by
      rw [hmb _ (by omega), decide_eq_true_eq]
      obtain ⟨c, rfl⟩ := hsdvd
      rcases c with _ | c
      · omega
      · rw [Nat.mul_succ, Nat.add_sub_assoc (by omega), Nat.mul_add_mod, Nat.mod_eq_of_lt (by omega)]
    have h2 := Nat.lt_size.2 (Nat.ge_two_pow_of_testBit h1)
    unfold bitWidth
    omega
  unfold sklanskyRound
  refine Ok.bind (bitScatter_ok S hwM h128 hs hP nP) fun ⟨Ph, Pl⟩ ⟨ph, pl, hPh, hPl, nPh, nPl, bPh, bPl⟩ =>
    Ok.bind (bitScatter_ok S hwM h128 hs hG nG) fun ⟨Gh, Gl⟩ ⟨gh, gl, hGh, hGl, nGh, nGl, bGh, bGl⟩ => ?_
  change Rep Ph ph at hPh
  change Rep Pl pl at hPl
  change Rep Gh gh at hGh
  change Rep Gl gl at hGl
  change C.nb Ph = 2 ^ m at nPh
  change C.nb Pl = 2 ^ m at nPl
  change C.nb Gh = 2 ^ m at nGh
  change C.nb Gl = 2 ^ m at nGl
  have hlift : ∀ {β : Type} {f : BitVec 128 → Spu.Model.Circ.M σ β} {Q : β → Prop}, Ok Inv (f sm) Q →
      Ok Inv ((liftM (ppaSelMask[s]? : Option (BitVec 128)) : Spu.Model.Circ.M σ (BitVec 128)) >>= f) Q := by
    intro β f Q h
    rw [hsm1]
    exact Ok.bind (P := fun a => a = sm) (fun s hs => ⟨sm, s, rfl, hs, rfl⟩) (fun a ha => by rw [ha]; exact h)
  refine hlift (Ok.bind (S.andP _ hGl) fun Gs ⟨hGs, nGs⟩ => Ok.bind (S.andP _ hPl) fun Ps ⟨hPs, nPs⟩ => ?_)
  rw [hbw, nGl] at nGs
  rw [hbw, nPl] at nPs
  have hsp0 : ∀ l : BitVec w, Spread s 0 l.getLsbD (l &&& sm.setWidth w).getLsbD := by
    intro l gq r hr
    by_cases hq : gq * 2 ^ s + r < w
    · rw [BitVec.getLsbD_and, hmb _ hq, grp_mod hr]
      by_cases hrr : r = 2 ^ s - 1
      · subst hrr; simp; omega
      · simp [hrr]; omega
    · rw [BitVec.getLsbD_of_ge _ _ (by omega), BitVec.getLsbD_of_ge l _ (by omega), Bool.and_false]
  refine Ok.bind (Ok.foldl_range (fun j (gp : T × T) => ∃ gs ps, Rep gp.1 gs ∧ Rep gp.2 ps ∧
      C.nb gp.1 = 2 ^ m ∧ C.nb gp.2 = 2 ^ m ∧ Spread s j gl.getLsbD gs.getLsbD ∧ Spread s j pl.getLsbD ps.getLsbD)
      ⟨_, _, hGs, hPs, by show C.nb Gs = _; omega, by show C.nb Ps = _; omega, hsp0 gl, hsp0 pl⟩ ?_) ?_
  · rintro j hj ⟨Gs, Ps⟩ ⟨gs, ps, hGs, hPs, nGs, nPs, sg, sp⟩
    change C.nb Gs = 2 ^ m at nGs
    change C.nb Ps = 2 ^ m at nPs
    have hjm : 2 ^ j < 2 ^ m := Nat.pow_lt_pow_right (by norm_num) (by omega)
    have hjw : 2 ^ j < w := by omega
    refine Ok.bind (S.shr hGs hjw (.inl (lt_of_lt_of_eq hjm nGs.symm))) fun g1 ⟨hg1, ng1⟩ => Ok.bind (S.xor hGs hg1) fun g2 ⟨hg2, ng2⟩ =>
      Ok.bind (S.shr hPs hjw (.inl (lt_of_lt_of_eq hjm nPs.symm))) fun p1 ⟨hp1, np1⟩ => Ok.bind (S.xor hPs hp1) fun p2 ⟨hp2, np2⟩ =>
      Ok.pure ⟨_, _, hg2, hp2, ?_, ?_, spread_step hj sg fun q => ?_, spread_step hj sp fun q => ?_⟩
    · rw [ng2, ng1, nGs]; exact max_eq_left (Nat.sub_le _ _)
    · rw [np2, np1, nPs]; exact max_eq_left (Nat.sub_le _ _)
    · rw [BitVec.getLsbD_xor, BitVec.getLsbD_ushiftRight]
    · rw [BitVec.getLsbD_xor, BitVec.getLsbD_ushiftRight]
  · rintro ⟨Gs, Ps⟩ ⟨gs, ps, hGs, hPs, nGs, nPs, sg, sp⟩
    change C.nb Gs = 2 ^ m at nGs
    change C.nb Ps = 2 ^ m at nPs
    refine Ok.bind (vand2_ok S hPh hPh hPs hGs rfl (by omega)) fun ⟨r0, r1⟩ ⟨hr0, hr1, nr0, nr1⟩ =>
      Ok.bind (S.xor hGh hr1) fun Gh' ⟨hGh', nGh'⟩ => ?_
    change Rep r0 _ at hr0
    change C.nb r0 = _ at nr0
    change C.nb r1 = _ at nr1
    change C.nb Gh' = max (C.nb Gh) (C.nb r1) at nGh'
    refine Ok.bind (bitGather_ok S hwM h128 hs hmw hr0 hPl (by omega) nPl) fun P' ⟨p', hP', nP', bP1, bP0⟩ =>
      Ok.bind (bitGather_ok S hwM h128 hs hmw hGh' hGl (by omega) nGl) fun G' ⟨g', hG', nG', bG1, bG0⟩ =>
      Ok.pure ⟨p', g', hP', hG', nP', nG', skl_step hs hI (fun c r hr hq => ?_) (fun c r hr hq => ?_)⟩
    · have k0 := bP0 _ hq
      have l0 := bG0 _ hq
      rw [bPl _ hq, grp_div hr, grp_mod hr] at k0
      rw [bGl _ hq, grp_div hr, grp_mod hr] at l0
      exact ⟨k0, l0⟩
    · have k1 := bP1 _ hq
      have l1 := bG1 _ hq
      have ht : c * 2 ^ s + (2 ^ s - 1) < 2 ^ m := grp_lt hs (by omega) (lt_of_le_of_lt (Nat.le_add_right _ _) hq)
      rw [BitVec.getLsbD_and, bPh _ hq, sp c r hr, bPl _ ht, grp_div hr, grp_mod hr,
        grp_div (by omega), grp_mod (by omega), decide_eq_true (show 2 ^ s ≤ r + 2 ^ s by omega)] at k1
      rw [BitVec.getLsbD_xor, BitVec.getLsbD_and, bGh _ hq, bPh _ hq, sg c r hr, bGl _ ht, grp_div hr, grp_mod hr,
        grp_div (by omega), grp_mod (by omega), decide_eq_true (show 2 ^ s ≤ r + 2 ^ s by omega)] at l1
      exact ⟨k1, l1⟩

/-- Sklansky adder of `ab_api.cc`: operands with a power-of-two declared bit count. -/
theorem c15_ppa_sklansky (S : Sound C Inv Rep) {M : ℕ} (hwM : w = 2 ^ M) (hw : 1 < w) (h128 : w ≤ 128) {a b : T}
    {x y : BitVec w} {t : ℕ} (ha : Rep a x) (hb : Rep b y) (na : C.nb a = 2 ^ t) (nb : C.nb b = 2 ^ t) :
    Ok Inv (ppaSklansky C a b (2 ^ t)) (fun c => Rep c (x + y) ∧ C.nb c = min (2 ^ t + 1) w) := by
  have hN : 2 ^ t ≤ w := na ▸ S.nb_le ha
  have hx : x.toNat < 2 ^ 2 ^ t := na ▸ S.lt ha
  have hy : y.toNat < 2 ^ 2 ^ t := nb ▸ S.lt hb
  refine Ok.bind (S.xor ha hb) fun P ⟨hP, nP⟩ => Ok.bind (S.and ha hb) fun G ⟨hG, nG⟩ =>
    Ok.enforce (by simp [na, nb]) ?_
  rw [log2Ceil_pow]
  refine Ok.bind (Ok.foldl_range (fun l (PG : T × T) => ∃ p g, Rep PG.1 p ∧ Rep PG.2 g ∧
    C.nb PG.1 = 2 ^ t ∧ C.nb PG.2 = 2 ^ t ∧ Skl x y l (2 ^ t) p g)
    ⟨_, _, hP, hG, by show C.nb P = _; omega, by show C.nb G = _; omega, fun i _ => ?_⟩ ?_) ?_
  · rw [cy_succ]; simp
  · rintro k hk ⟨P, G⟩ ⟨p, g, hP, hG, nP, nG, hK⟩
    obtain ⟨m, rfl⟩ : ∃ m, t = m + 1 := ⟨t - 1, by omega⟩
    exact sklanskyRound_ok S hwM h128 (by omega) hP hG nP nG hK
  · rintro ⟨P', G'⟩ ⟨p, g, hP', hG', nP', nG', hK⟩
    change C.nb G' = 2 ^ t at nG'
    refine Ok.bind (S.shl hG' hw (.inr (by norm_num))) fun c ⟨hc, nc⟩ => Ok.bind (S.xor ha hb) fun s ⟨hs, ns⟩ => ?_
    refine Ok.imp (S.xor hs hc) fun r ⟨hr, nr⟩ => ⟨?_, by rw [nr, nc, ns]; show max _ (min (C.nb G' + 1) w) = _; omega⟩
    have e : x + y = x ^^^ y ^^^ g <<< 1 := by
      refine BitVec.eq_of_getLsbD_eq fun i hi => ?_
      rw [add_bit x y hi]
      simp only [BitVec.getLsbD_xor, BitVec.getLsbD_shiftLeft, hi, decide_true, Bool.true_and]
      congr 1
      rcases i with _ | i
      · simp
      · simp only [show ¬ i + 1 < 1 by omega, decide_false, Bool.not_false, Bool.true_and,
          Nat.add_sub_cancel]
        by_cases hn : i < 2 ^ t
        · rw [hK i hn, Nat.div_eq_of_lt hn, Nat.zero_mul, cy_zero, Bool.and_false, Bool.xor_false]
        · have hg : g.toNat < 2 ^ 2 ^ t := nG' ▸ S.lt hG'
          rw [cy_succ, bit_of_lt hx (by omega), bit_of_lt hy (by omega), bit_of_lt hg (by omega)]
          rfl
    rw [e]; exact hr

end

end Spu.Props

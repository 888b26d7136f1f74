import Verif.Model.Spdz2kConv
import Verif.Props.Circuits

set_option autoImplicit false

/-!
The circuits of `mpc/utils/circuits.h` for gates that are only correct where SPDZ2k's gates are: the other operand of `and`
may be a public constant other than zero, shares carry a number of valid bits, and `vmap` needs equal numbers of bits.
-/

namespace Spu.Props.SpdzC
open Spu.Model.Circ Spu.Model.Bits Spu.Model.Spdz Spu.Spec Spu.Lemmas Spu.Props

/-- Gates on shares of arrays of words of `w` bits: `Rep` for shares, `Con` for public constants, `nb` the number of valid bits. -/
structure Weak {ι T : Type} (w : ℕ) (C : CBB ℕ T) (vm : T × T → T × T → M ℕ (T × T)) (Inv : ℕ → Prop) (Rep Con : T → (ι → BitVec w) → Prop)
    (nb : T → ℕ) : Prop where
  lt : ∀ {a x}, Rep a x → ∀ i, (x i).toNat < 2 ^ nb a
  pos : ∀ {a x}, Rep a x → 0 < nb a
  xor : ∀ {a b x y}, Rep a x → Rep b y → Ok Inv (C.xor a b) (fun c => Rep c (fun i => x i ^^^ y i) ∧ nb c = max (nb a) (nb b))
  and : ∀ {a b x y}, Rep a x → Rep b y → Ok Inv (C.and a b) (fun c => Rep c (fun i => x i &&& y i) ∧ nb c = min (nb a) (nb b))
  shl : ∀ {a x k}, Rep a x → k < w → Ok Inv (C.lshift a k) (fun c => Rep c (fun i => x i <<< k) ∧ nb c = min (nb a + k) w)
  shr : ∀ {a x k}, Rep a x → k < w → Ok Inv (C.rshift a k) (fun c => Rep c (fun i => x i >>> k))
  init : ∀ {a x} (v : BitVec 128), Rep a x → Ok Inv (C.initLike a v) (fun c => Con c (fun _ => v.setWidth w))
  andC : ∀ {a c x v}, Rep a x → Con c (fun _ => v) → v ≠ 0 → Ok Inv (C.and a c) (fun c => Rep c (fun i => x i &&& v) ∧ nb c ≤ nb a)
  setNbits : ∀ {a x k}, Rep a x → 0 < k → k ≤ w → (∀ i, (x i).toNat < 2 ^ k) →
    Ok Inv (C.setNbits a k) (fun c => Rep c x ∧ nb c = k)
  vm : ∀ {a a' b b' x x' y y'}, Rep a x → Rep a' x' → Rep b y → Rep b' y' → nb a = nb a' → nb b = nb b' →
    Ok Inv (vm (a, a') (b, b')) (fun c => Rep c.1 (fun i => x i &&& y i) ∧ Rep c.2 (fun i => x' i &&& y' i) ∧
      nb c.1 = min (nb a) (nb b) ∧ nb c.2 = min (nb a) (nb b))

section
variable {ι T : Type} {w : ℕ} {C : CBB ℕ T} {vm : T × T → T × T → M ℕ (T × T)} {Inv : ℕ → Prop} {Rep Con : T → (ι → BitVec w) → Prop}
  {nb : T → ℕ}

theorem keep_ne (l : ℕ) (hw : 0 < w) {K : BitVec 128} (h : keepMasks[l]? = some K) : K.setWidth w ≠ 0 := by
  intro hz
  have h1 : (K.setWidth w).getLsbD 0 = false := by rw [hz]; simp
  have h2 : K.getLsbD 0 = true := by
    have : keepMasks.all (fun K => K.getLsbD 0) = true := by decide +kernel
    exact List.all_eq_true.1 this K (List.mem_of_getElem? h)
  rw [BitVec.getLsbD_setWidth, h2] at h1
  simp at h1
  omega

theorem swap_ne (l : ℕ) (hw : 2 ^ l < w) {K : BitVec 128} (h : swapMasks[l]? = some K) : K.setWidth w ≠ 0 := by
  intro hz
  have h1 : (K.setWidth w).getLsbD (2 ^ l) = false := by rw [hz]; simp
  have h2 : K.getLsbD (2 ^ l) = true := by
    have : ∀ l < 8, (swapMasks[l]?).all (fun K => K.getLsbD (2 ^ l)) = true := by decide +kernel
    have h3 := this l (by
      have := (List.getElem?_eq_some_iff.1 h).1
      have e : swapMasks.length ≤ 8 := by decide
      omega)
    rw [h] at h3
    exact h3
  rw [BitVec.getLsbD_setWidth, h2] at h1
  simp at h1
  omega

theorem ne_of_bit {v : BitVec w} {i : ℕ} (h : v.getLsbD i = true) : v ≠ 0 := by
  rintro rfl
  simp at h

theorem splitLevelV_ok (S : Weak w C vm Inv Rep Con nb) {l : ℕ} (hl : 2 ^ l < w) {K Mm : BitVec 128}
    (hK : keepMasks[l]? = some K) (hM : swapMasks[l]? = some Mm) {a : T} {r r' : ι → BitVec w} (ha : Rep a r)
    (h : ∀ i, swapStep l (r i) = some (r' i)) : Ok Inv (splitLevel C a l) (fun c => Rep c r') := by
  refine ok_lift hK (ok_lift hM (Ok.bind (S.init K ha) fun k hk => Ok.bind (S.init Mm ha) fun mv hmv =>
    Ok.bind (S.andC ha hk (keep_ne l ((Nat.zero_le _).trans_lt hl) hK)) fun a1 ⟨ha1, _⟩ =>
    Ok.bind (S.shr ha hl) fun b hb => Ok.bind (S.andC hb hmv (swap_ne l hl hM)) fun b ⟨hb, _⟩ =>
    Ok.bind (S.andC ha hmv (swap_ne l hl hM)) fun c ⟨hc, _⟩ => Ok.bind (S.shl hc hl) fun c ⟨hc, _⟩ =>
    Ok.bind (S.xor hb hc) fun bc ⟨hbc, _⟩ => Ok.imp (S.xor ha1 hbc) fun z ⟨hz, _⟩ => ?_))
  have e : (fun i => r i &&& K.setWidth w ^^^ (r i >>> 2 ^ l &&& Mm.setWidth w ^^^ (r i &&& Mm.setWidth w) <<< 2 ^ l)) = r' := by
    funext i
    have := h i
    unfold swapStep at this
    simp only [hK, hM, Option.bind_eq_bind, Option.bind_some, Option.pure_def, Option.some_inj] at this
    rw [← this, BitVec.xor_assoc]
  rw [← e]; exact hz

theorem foldl_splitV_ok (S : Weak w C vm Inv Rep Con nb) (ls : List ℕ) : ∀ {a : T} {x r : ι → BitVec w},
    (∀ l ∈ ls, 2 ^ l < w) → (∀ l ∈ ls, ∃ K Mm, keepMasks[l]? = some K ∧ swapMasks[l]? = some Mm) → Rep a x →
    (∀ i, ls.foldlM (fun r l => swapStep l r) (x i) = some (r i)) →
    Ok Inv (ls.foldlM (splitLevel C) a) (fun c => Rep c r) := by
  induction ls with
  | nil =>
    intro a x r _ _ ha h
    simp only [List.foldlM_nil, Option.pure_def, Option.some_inj] at h
    rw [← funext h]
    exact Ok.pure ha
  | cons l ls ih =>
    intro a x r hl hm ha h
    simp only [List.foldlM_cons] at h
    rw [List.foldlM_cons]
    obtain ⟨K, Mm, hK, hM⟩ := hm l (by simp)
    have hz : ∀ i, ∃ z, swapStep l (x i) = some z := fun i => by
      have := h i
      rcases hz : swapStep l (x i) with _ | z
      · rw [hz] at this; cases this
      · exact ⟨z, rfl⟩
    choose z hz using hz
    refine Ok.bind (splitLevelV_ok S (hl l (by simp)) hK hM ha hz) fun c hc =>
      ih (fun l hl' => hl l (by simp [hl'])) (fun l hl' => hm l (by simp [hl'])) hc fun i => ?_
    have := h i
    rw [hz i] at this
    exact this

/-- `odd_even_split` for an even `k`: even bits in the low half, odd bits in the high half of `k` bits. -/
theorem oddEvenSplit_ok (S : Weak w C vm Inv Rep Con nb) {M : ℕ} (hwM : w = 2 ^ M) (h128 : w ≤ 128) {a : T}
    {x : ι → BitVec w} {h : ℕ} (h0 : 0 < h) (hk : 2 * h ≤ w) (ha : Rep a x) :
    Ok Inv (oddEvenSplit C a (2 * h)) (fun c => ∃ r, Rep c r ∧ ∀ i q, q < h →
      (r i).getLsbD q = (x i).getLsbD (2 * q) ∧ (r i).getLsbD (h + q) = (x i).getLsbD (2 * q + 1)) := by
  obtain ⟨m, hm1, hm2⟩ := exists_pow_between (k := 2 * h) (by omega)
  have e2 : 2 ^ (m + 1) = 2 ^ m + 2 ^ m := by rw [pow_succ]; ring
  have hm0 : 0 < 2 ^ m := Nat.two_pow_pos m
  have hmw : 2 ^ (m + 1) ≤ w := by
    have : 2 ^ m < 2 ^ M := by omega
    rw [hwM]
    exact Nat.pow_le_pow_right (by norm_num) ((Nat.pow_lt_pow_iff_right (by norm_num)).1 this)
  have hdvd : 2 ^ (m + 1) ∣ w := by
    rw [hwM] at hmw ⊢
    exact pow_dvd_pow 2 ((Nat.pow_le_pow_iff_right (by norm_num)).1 hmw)
  have hL : log2Ceil (2 * h) = m + 1 := log2Ceil_eq hm1 hm2
  choose r hr hbits using fun i => c14_deintl h128 (by omega) hdvd (Nat.zero_le m) (x i)
  have hb : ∀ i q, q < 2 ^ m → (r i).getLsbD q = (x i).getLsbD (2 * q) ∧
      (r i).getLsbD (2 ^ m + q) = (x i).getLsbD (2 * q + 1) := by
    intro i q hq
    have b0 := hbits i 0 0 q (by norm_num) hq (by omega)
    have b1 := hbits i 0 1 q (by norm_num) hq (by omega)
    simp only [Nat.zero_mul, Nat.zero_add, Nat.one_mul, pow_zero, Nat.div_one, Nat.mul_one, Nat.mod_one,
      Nat.add_zero] at b0 b1
    exact ⟨b0, b1⟩
  unfold oddEvenSplit
  refine Ok.bind (S.shl ha (by omega)) fun v ⟨hv, _⟩ => Ok.bind (P := fun c => Rep c r) ?_ fun v2 hv2 => ?_
  · rw [range_eq_levels, hL]
    have hlev := levels_ok (s := 0) h128 (show 0 < w by omega) hdvd
    refine foldl_splitV_ok S _ (fun l hl => ?_) (fun l hl => ?_) (x := x) (by simpa using hv) hr
    · have := (hlev l hl).2
      have h3 : 2 ^ (l + 2) ≤ w := Nat.le_of_dvd (by omega) this
      have h4 : 2 ^ l < 2 ^ (l + 2) := Nat.pow_lt_pow_right (by norm_num) (by omega)
      omega
    · have h6 : l < keepMasks.length ∧ l < swapMasks.length := by
        have := (hlev l hl).1
        rw [show keepMasks.length = 6 from rfl, show swapMasks.length = 6 from rfl]
        exact ⟨this, this⟩
      exact ⟨_, _, List.getElem?_eq_getElem h6.1, List.getElem?_eq_getElem h6.2⟩
  · split
    · rename_i hsb
      obtain ⟨t, ht⟩ := singleBit_iff hsb
      have hh : h = 2 ^ m := by
        rw [ht] at hm1 hm2
        have a1 := (Nat.pow_lt_pow_iff_right (a := 2) (by norm_num)).1 hm1
        have a2 := (Nat.pow_le_pow_iff_right (a := 2) (by norm_num)).1 hm2
        have : t = m + 1 := by omega
        rw [this] at ht
        omega
      subst hh
      exact Ok.pure ⟨r, hv2, hb⟩
    · rename_i hsb
      have hne : 2 * h ≠ 2 ^ (m + 1) := by
        intro he; rw [he] at hsb; exact hsb (singleBit_pow _)
      have hlt : 2 * h < 2 ^ (m + 1) := lt_of_le_of_ne hm2 hne
      have hF : log2Floor (2 * h) = m := log2Floor_eq hm1.le hlt
      unfold splitFix
      rw [hF, show 2 * h / 2 = h by omega, if_neg (show ¬ h ≥ 64 by omega)]
      have hmask : ∀ i, i < w → ((((1 : BitVec 64) <<< h - 1).setWidth 128).setWidth w).getLsbD i = decide (i < h) := by
        intro i hi
        have e1 : ((1 : BitVec 64) <<< h - 1).toNat = 2 ^ h - 1 := by
          have p1 : 2 ^ h < 2 ^ 64 := Nat.pow_lt_pow_right (by norm_num) (by omega)
          have p0 : 0 < 2 ^ h := Nat.two_pow_pos h
          rw [BitVec.toNat_sub, BitVec.toNat_shiftLeft, show (1 : BitVec 64).toNat = 1 from rfl, Nat.shiftLeft_eq,
            one_mul, Nat.mod_eq_of_lt p1]
          generalize 2 ^ h = d at p0 p1 ⊢
          omega
        rw [BitVec.getLsbD_setWidth, BitVec.getLsbD_setWidth]
        unfold BitVec.getLsbD
        rw [e1, Nat.testBit_two_pow_sub_one]
        simp [hi]
        omega
      refine Ok.bind (S.init _ hv2) fun mk hmk => Ok.bind (S.shr hv2 (show 2 ^ m < w by omega)) fun h1 hh1 =>
        Ok.bind (S.shl hh1 (show h < w by omega)) fun h2 ⟨hh2, _⟩ => Ok.bind (S.andC hv2 hmk (ne_of_bit (i := 0) (by rw [hmask 0 (by omega)]; simp; omega))) fun lo ⟨hlo, _⟩ =>
        Ok.imp (S.xor hh2 hlo) fun c ⟨hc, _⟩ => ⟨_, hc, fun i q hq => ?_⟩
      obtain ⟨q0, q1⟩ := hb i q (by omega)
      constructor
      · rw [BitVec.getLsbD_xor, BitVec.getLsbD_and, BitVec.getLsbD_shiftLeft, hmask q (by omega), q0]
        simp [hq]
      · rw [BitVec.getLsbD_xor, BitVec.getLsbD_and, BitVec.getLsbD_shiftLeft, hmask (h + q) (by omega),
          BitVec.getLsbD_ushiftRight, Nat.add_sub_cancel_left, q1]
        simp
        omega

theorem bitSplitV_ok (S : Weak w C vm Inv Rep Con nb) {M : ℕ} (hwM : w = 2 ^ M) (h128 : w ≤ 128) {a : T}
    {x : ι → BitVec w} {h : ℕ} (h0 : 0 < h) (hk : 2 * h ≤ w) (ha : Rep a x) :
    Ok Inv (bitSplit C a (2 * h)) (fun c => ∃ e o, Rep c.1 e ∧ Rep c.2 o ∧ nb c.1 = h ∧ nb c.2 = h ∧ (∀ i, (e i).toNat < 2 ^ h) ∧ (∀ i, (o i).toNat < 2 ^ h) ∧
      ∀ i q, q < h → (e i).getLsbD q = (x i).getLsbD (2 * q) ∧ (o i).getLsbD q = (x i).getLsbD (2 * q + 1)) := by
  unfold bitSplit
  simp only [show 2 * h / 2 = h by omega]
  have hm : ∀ i, i < w → (((1 : BitVec 128) <<< h - 1).setWidth w).getLsbD i = decide (i < h) := by
    intro i hi
    rw [BitVec.getLsbD_setWidth, mask_bit (by omega)]
    simp [hi]
  have hlt : ∀ z : BitVec w, (z &&& ((1 : BitVec 128) <<< h - 1).setWidth w).toNat < 2 ^ h := by
    intro z
    refine lt_of_bits fun i hi => ?_
    by_cases hw : i < w
    · rw [BitVec.getLsbD_and, hm i hw, decide_eq_false (by omega), Bool.and_false]
    · exact BitVec.getLsbD_of_ge _ _ (by omega)
  have hne : ((1 : BitVec 128) <<< h - 1).setWidth w ≠ 0 := ne_of_bit (i := 0) (by rw [hm 0 (by omega)]; simp; omega)
  refine Ok.enforce (by simp; omega) (Ok.bind (oddEvenSplit_ok S hwM h128 h0 hk ha) fun p ⟨r, hr, hb⟩ =>
    Ok.bind (S.init _ hr) fun mk hmk => Ok.bind (S.andC hr hmk hne) fun t0 ⟨ht0, _⟩ =>
    Ok.bind (S.shr hr (show h < w by omega)) fun hh hhh => Ok.bind (S.andC hhh hmk hne) fun t1 ⟨ht1, _⟩ =>
    Ok.bind (S.setNbits ht0 h0 (by omega) fun _ => hlt _) fun t0 ⟨ht0, n0⟩ => Ok.bind (S.setNbits ht1 h0 (by omega) fun _ => hlt _) fun t1 ⟨ht1, n1⟩ =>
    Ok.pure ⟨_, _, ht0, ht1, n0, n1, fun _ => hlt _, fun _ => hlt _, fun i q hq => ?_⟩)
  obtain ⟨b0, b1⟩ := hb i q hq
  constructor
  · rw [BitVec.getLsbD_and, hm q (by omega), b0]; simp [hq]
  · rw [BitVec.getLsbD_and, BitVec.getLsbD_ushiftRight, hm q (by omega), b1]; simp [hq]


/-- `carry_out`'s loop. -/
theorem carryLoop_ok (S : Weak w C vm Inv Rep Con nb) {M : ℕ} (hwM : w = 2 ^ M) (h128 : w ≤ 128) :
    ∀ (k : ℕ) {P G : T} {p g : ι → BitVec w}, 0 < k → k ≤ w → (k = 1 → (∀ i, (g i).toNat < 2) ∧ nb G = 1) → Rep P p → Rep G g →
      Ok Inv (carryLoopV C vm P G k) (fun c =>
        Rep c (fun i => BitVec.ofNat w (genCarry (g i).getLsbD (p i).getLsbD k).toNat) ∧ nb c = 1) := by
  intro k
  induction k using Nat.strong_induction_on with
  | _ k ih =>
    intro P G p g h0 hkw h1 hP hG
    by_cases hk1 : k = 1
    · subst hk1
      rw [carryLoopV, dif_neg (by norm_num)]
      refine Ok.pure ⟨?_, (h1 rfl).2⟩
      have e : (fun i => BitVec.ofNat w (genCarry (g i).getLsbD (p i).getLsbD 1).toNat) = g := by
        funext i
        rw [genCarry, genCarry, Bool.and_false, Bool.xor_false]
        exact (ofBit_eq ((h1 rfl).1 i)).symm
      rw [e]; exact hG
    · have round : ∀ (h : ℕ) {P G : T} {p g : ι → BitVec w}, 0 < h → h < k → 2 * h ≤ w → Rep P p → Rep G g →
          Ok Inv (do
            let P' ← bitSplit C P (2 * h)
            let G' ← bitSplit C G (2 * h)
            let res ← vm (P'.1, G'.1) (P'.2, P'.2)
            let G ← C.xor G'.2 res.2
            carryLoopV C vm res.1 G h) (fun c =>
              Rep c (fun i => BitVec.ofNat w (genCarry (g i).getLsbD (p i).getLsbD (2 * h)).toNat) ∧ nb c = 1) := by
        intro h P G p g hh0 hhk hhw hP hG
        refine Ok.bind (bitSplitV_ok S hwM h128 hh0 hhw hP) fun P' ⟨p0, p1, hP0, hP1, np0, np1, lp0, lp1, bp⟩ =>
          Ok.bind (bitSplitV_ok S hwM h128 hh0 hhw hG) fun G' ⟨g0, g1, hG0, hG1, ng0, ng1, lg0, lg1, bg⟩ =>
          Ok.bind (S.vm hP0 hG0 hP1 hP1 (by rw [np0, ng0]) rfl) fun res ⟨r0, r1, n0, n1⟩ =>
          Ok.bind (S.xor hG1 r1) fun G2 ⟨hG2, nG2⟩ => ?_
        rw [n1, np0, np1, ng1, min_self, max_self] at nG2
        refine Ok.imp (ih h hhk hh0 (by omega) (fun he => ⟨?_, by rw [nG2, he]⟩) r0 hG2) fun c hc => ?_
        · subst he
          intro i
          refine lt_of_bits (n := 1) fun j hj => ?_
          rw [BitVec.getLsbD_xor, BitVec.getLsbD_and, bit_of_lt (lg1 i) hj, bit_of_lt (lg0 i) hj]; rfl
        · have e : (fun i => BitVec.ofNat w (genCarry (g i).getLsbD (p i).getLsbD (2 * h)).toNat) =
              fun i => BitVec.ofNat w (genCarry (g1 i ^^^ (g0 i &&& p1 i)).getLsbD (p0 i &&& p1 i).getLsbD h).toNat := by
            funext i
            rw [← genCarry_pair (g := (g i).getLsbD) (p := (p i).getLsbD) (g' := (g1 i ^^^ (g0 i &&& p1 i)).getLsbD)
              (p' := (p0 i &&& p1 i).getLsbD)]
            · intro j hj
              rw [BitVec.getLsbD_xor, BitVec.getLsbD_and, (bg i j hj).1, (bg i j hj).2, (bp i j hj).2]
            · intro j hj
              rw [BitVec.getLsbD_and, (bp i j hj).1, (bp i j hj).2]
          rw [e]
          exact hc
      rw [carryLoopV, dif_pos (by omega)]
      by_cases hodd : k % 2 = 0
      · obtain ⟨h, rfl⟩ : ∃ h, k = 2 * h := ⟨k / 2, by omega⟩
        have := round h (by omega) (by omega) hkw hP hG
        simp only [show ¬ 2 * h % 2 ≠ 0 by omega, if_false, show 2 * h / 2 = h by omega, pure_bind]
        exact this
      · obtain ⟨h, rfl⟩ : ∃ h, k = 2 * h + 1 := ⟨k / 2, by omega⟩
        have hkw2 : 2 * h + 1 + 1 ≤ w := by
          rcases M with _ | M
          · omega
          · rw [pow_succ] at hwM; omega
        simp only [show (2 * h + 1) % 2 ≠ 0 by omega, ne_eq, not_false_eq_true, if_true,
          show (2 * h + 1 + 1) / 2 = h + 1 by omega, pure_bind]
        refine Ok.bind (S.shl hP (by omega)) fun P' ⟨hP', _⟩ => Ok.bind (S.shl hG (by omega)) fun G' ⟨hG', _⟩ => ?_
        refine Ok.imp (round (h + 1) (by omega) (by omega) (by omega) hP' hG') fun c hc => ?_
        have e : (fun i => BitVec.ofNat w (genCarry (g i).getLsbD (p i).getLsbD (2 * h + 1)).toNat) =
            fun i => BitVec.ofNat w (genCarry (g i <<< 1).getLsbD (p i <<< 1).getLsbD (2 * (h + 1))).toNat := by
          funext i
          rw [show 2 * (h + 1) = 2 * h + 1 + 1 by ring, genCarry_shift (g := (g i).getLsbD) (p := (p i).getLsbD) (g' := (g i <<< 1).getLsbD)
            (p' := (p i <<< 1).getLsbD)]
          · simp
          · intro i hi; rw [BitVec.getLsbD_shiftLeft]; simp; omega
          · intro i hi; rw [BitVec.getLsbD_shiftLeft]; simp; omega
        rw [e]
        exact hc

/-- `carry_out` of two shares with the same number of valid bits: one bit, the carry out of the `k` low bits. -/
theorem carryOutV_ok (S : Weak w C vm Inv Rep Con nb) {M : ℕ} (hwM : w = 2 ^ M) (h128 : w ≤ 128)
    {a b : T} {x y : ι → BitVec w} {k : ℕ} (h0 : 0 < k) (hk : k ≤ w) (ha : Rep a x) (hb : Rep b y) (na : nb a = k)
    (nb' : nb b = k) :
    Ok Inv (carryOutV C vm a b k)
      (fun c => Rep c (fun i => BitVec.ofNat w (carryOut (x i).toNat (y i).toNat k)) ∧ nb c = 1) := by
  refine Ok.enforce (by simpa using h0.ne') (Ok.bind (S.xor ha hb) fun P ⟨hP, _⟩ => Ok.bind (S.and ha hb) fun G ⟨hG, nG⟩ => ?_)
  by_cases h1 : k = 1
  · subst h1
    simp only [if_true]
    have hone : (1 : BitVec 128).setWidth w ≠ 0 := ne_of_bit (i := 0) (by
      rw [BitVec.getLsbD_setWidth, decide_eq_true (by omega : 0 < w)]; rfl)
    refine Ok.bind (S.init 1 hG) fun o ho => Ok.imp (S.andC hG ho hone) fun c ⟨hc, hn⟩ => ⟨?_, ?_⟩
    swap
    · have := S.pos hc
      omega
    have e : (fun i => BitVec.ofNat w (carryOut (x i).toNat (y i).toNat 1)) =
        fun i => x i &&& y i &&& (1 : BitVec 128).setWidth w := by
      funext j
      generalize x j = x
      generalize y j = y
      rw [← cy_carryOut, ← genCarry_cy, genCarry, genCarry, Bool.and_false, Bool.xor_false]
      have e0 : ∀ i : ℕ, (fun i => x.getLsbD i && y.getLsbD i) i = (x &&& y).getLsbD i := fun i => by rw [BitVec.getLsbD_and]
      refine BitVec.eq_of_getLsbD_eq fun i hi => ?_
      rw [BitVec.getLsbD_and (x := x &&& y), BitVec.getLsbD_setWidth]
      rcases i with _ | i
      · cases hh : (x &&& y).getLsbD 0 <;> simp [hi]
      · have : (1 : BitVec 128).getLsbD (i + 1) = false := by
          simp [BitVec.getLsbD, Nat.testBit_succ]
        rw [this, Bool.and_false, Bool.and_false]
        cases hh : (x &&& y).getLsbD 0
        · simp
        · rw [Bool.toNat_true, BitVec.getLsbD_ofNat]
          simp [Nat.testBit_succ]
    rw [e]; exact hc
  · simp only [h1, if_false]
    refine Ok.imp (carryLoop_ok S hwM h128 k h0 hk (fun h => absurd h h1) hP hG) fun c hc => ⟨?_, hc.2⟩
    have e : (fun i => BitVec.ofNat w (carryOut (x i).toNat (y i).toNat k)) =
        fun i => BitVec.ofNat w (genCarry (x i &&& y i).getLsbD (x i ^^^ y i).getLsbD k).toNat := by
      funext i
      rw [← cy_carryOut, ← genCarry_cy]
    rw [e]; exact hc.1

/-- `kogge_stone`: the whole sum, when `x ^ y` and `x & y` have the same number of valid bits, or almost all bits. -/
theorem koggeStoneV_ok (S : Weak w C vm Inv Rep Con nb) (hw : 1 < w) {a b : T} {x y : ι → BitVec w} {k g : ℕ} (hk : k ≤ w)
    (hxor : Ok Inv (C.xor a b) fun c => Rep c (fun i => x i ^^^ y i) ∧ nb c = k)
    (hand : Ok Inv (C.and a b) fun c => Rep c (fun i => x i &&& y i) ∧ nb c = g) (hg : g = k ∨ k = w ∧ g + 1 = w) :
    Ok Inv (koggeStoneV C vm a b k) (fun c => Rep c (fun i => x i + y i) ∧ nb c = min (k + 1) w) := by
  refine Ok.bind hxor fun P ⟨hP, nP⟩ => Ok.bind hand fun G ⟨hG, nG⟩ => ?_
  refine Ok.bind (Ok.foldl_range (fun l (PG : T × T) => ∃ p g, Rep PG.1 p ∧ Rep PG.2 g ∧ nb PG.1 = k ∧ (nb PG.2 = k ∨ k = w ∧ nb PG.2 + 1 = w) ∧
    ∀ i, Kogge (x i) (y i) l (p i) (g i)) ⟨_, _, hP, hG, nP, by rw [nG]; exact hg, fun i => kogge_init (x i) (y i)⟩ ?_) ?_
  · rintro l hl ⟨P, G⟩ ⟨p, g, hP, hG, nP, nG, hK⟩
    have hl2 : 2 ^ l < w := lt_of_lt_of_le (pow_lt_of_lt_log2Ceil hl) hk
    have h1 := Nat.one_le_two_pow (n := l)
    simp only at nP nG
    refine Ok.bind (S.shl hG hl2) fun G1 ⟨hG1, nG1⟩ => Ok.bind (S.shl hP hl2) fun P1 ⟨hP1, nP1⟩ =>
      Ok.bind (S.vm hP hP hP1 hG1 rfl ?_) fun res ⟨r0, r1, n0, n1⟩ =>
      Ok.bind (S.xor hG r1) fun G' ⟨hG', nG'⟩ => Ok.pure ⟨_, _, r0, hG', ?_, Or.inl ?_, fun i => kogge_step (hK i)⟩
    · rw [nP1, nG1]
      show min (nb P + 2 ^ l) w = min (nb G + 2 ^ l) w
      rcases nG with h | ⟨h2, h3⟩
      · rw [nP, h]
      · rw [min_eq_right (by omega), min_eq_right (by omega)]
    · rw [n0, nP1]
      show min (nb P) (min (nb P + 2 ^ l) w) = k
      rw [nP]
      exact min_eq_left (le_min (Nat.le_add_right _ _) hk)
    · rw [nG', n1, nP1]
      show max (nb G) (min (nb P) (min (nb P + 2 ^ l) w)) = k
      rw [nP, min_eq_left (le_min (Nat.le_add_right _ _) hk)]
      exact max_eq_right (by omega)
  · rintro ⟨P', G'⟩ ⟨p, g, hP', hG', nP', nG', hK⟩
    simp only at nP' nG'
    refine Ok.bind (S.shl hG' hw) fun c ⟨hc, nc⟩ => Ok.bind hxor fun s ⟨hs, ns⟩ =>
      Ok.imp (S.xor hs hc) fun r ⟨hr, nr⟩ => ⟨?_, ?_⟩
    · have e : (fun i => x i ^^^ y i ^^^ g i <<< 1) = fun i => x i + y i := by
        funext j
        have hall : ∀ i, i < w → (g j).getLsbD i = cy (x j) (y j) (i + 1) := by
          intro i hi
          by_cases hik : i < k
          · exact kogge_final (hK j) hi (lt_of_lt_of_le hik (le_pow_log2Ceil k))
          · have hp : (p j).getLsbD i = false := bit_of_lt (by have := S.lt hP' j; rwa [nP'] at this) (by omega)
            rw [hK j i hi, hp, Bool.false_and, Bool.xor_false]
        refine BitVec.eq_of_getLsbD_eq fun i hi => ?_
        rw [add_bit _ _ hi]
        simp only [BitVec.getLsbD_xor, BitVec.getLsbD_shiftLeft, hi, decide_true, Bool.true_and]
        congr 1
        rcases i with _ | i
        · simp
        · simp only [show ¬ i + 1 < 1 by omega, decide_false, Bool.not_false, Bool.true_and, Nat.add_sub_cancel]
          exact hall i (by omega)
      rw [← e]
      exact hr
    · rw [nr, ns, nc]
      show max k (min (nb G' + 1) w) = min (k + 1) w
      omega

end

end Spu.Props.SpdzC

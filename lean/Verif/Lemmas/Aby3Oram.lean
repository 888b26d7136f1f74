import Verif.Spec.Aby3Oram
import Verif.Lemmas.Gates
import Verif.Lemmas.CheetahOt
import Mathlib.Data.BitVec
import Mathlib.Data.Nat.Log
import Mathlib.Tactic.LinearCombination

set_option autoImplicit false

/-! # Distributed point functions are correct -/

namespace Spu.Lemmas
open Spu.Model Spu.Model.Circ Spu.Model.Bits Spu.Model.Aby3 Spu.Model.Aby3.Env Spu.Model.Prg Spu.Spec

theorem log2Ceil_clog (n : ℕ) : log2Ceil n = Nat.clog 2 n := by
  apply le_antisymm
  · by_contra h
    push Not at h
    have h1 := pow_lt_of_lt_log2Ceil h
    have h2 := Nat.le_pow_clog (b := 2) (by norm_num) n
    omega
  · exact Nat.clog_le_of_le_pow (le_pow_log2Ceil n)

/-! ### Triples -/

theorem dpfScript_fits (j : Fin 3) : Fits (dpfScript j) := by
  intro i; revert i j; decide

section
variable {v : ℕ}

theorem one_two {r : Fin 3 → List (ℕ → BitVec v) × List (ℕ → BitVec v)} (h : ∀ i, (r i).2 = (r (i + 1)).1)
    (k : ℕ) (i : Fin 3) : two r k i = one r k (i + 1) := by
  unfold two one
  rw [h i]

theorem xor_bits {a b : BitVec v} (h : ∀ i, i < v → a.getLsbD i = b.getLsbD i) : a = b :=
  BitVec.eq_of_getLsbD_eq h

theorem oramBeaver_and {d : Fin 3 → List (ℕ → BitVec v) × List (ℕ → BitVec v)} (h : ∀ i, (d i).2 = (d (i + 1)).1)
    (j : Fin 3) (num i : ℕ) :
    let t := fun p => oramBeaver (· &&& ·) (· ^^^ ·) (· ^^^ ·) j num d p i
    (t true).2.2 ^^^ (t false).2.2 = ((t true).1 ^^^ (t false).1) &&& ((t true).2.1 ^^^ (t false).2.1) := by
  have e : j + 1 + 1 = j + 2 := by revert j; decide
  have h0 := one_two h 0 j
  have h1 := one_two h 0 (j + 1)
  rw [e] at h1
  simp only [oramBeaver, beaverAdj, if_true, Bool.false_eq_true, if_false, h0, h1]
  apply xor_bits
  intro k _
  simp only [BitVec.getLsbD_xor, BitVec.getLsbD_and]
  generalize (one d 0 (j + 1) (num * 2 + i)).getLsbD k = a
  generalize (one d 0 (j + 2) (num * 2 + i)).getLsbD k = b
  generalize (one d 0 (j + 1) (num + i)).getLsbD k = a1
  generalize (one d 0 (j + 2) (num + i)).getLsbD k = b1
  generalize (one d 0 (j + 1) i).getLsbD k = a2
  generalize (one d 0 (j + 2) i).getLsbD k = b2
  revert a b a1 b1 a2 b2
  decide

theorem oramBeaver_mul {d : Fin 3 → List (ℕ → BitVec v) × List (ℕ → BitVec v)} (h : ∀ i, (d i).2 = (d (i + 1)).1)
    (j : Fin 3) (num i : ℕ) :
    let t := fun p => oramBeaver (· * ·) (· + ·) (· - ·) j num d p i
    (t true).2.2 + (t false).2.2 = ((t true).1 + (t false).1) * ((t true).2.1 + (t false).2.1) := by
  have e : j + 1 + 1 = j + 2 := by revert j; decide
  have h0 := one_two h 0 j
  have h1 := one_two h 0 (j + 1)
  rw [e] at h1
  simp only [oramBeaver, beaverAdj, if_true, Bool.false_eq_true, if_false, h0, h1]
  ring

end

/-- a Beaver multiplication of bits -/
theorem beaver_bit : ∀ xT xF yT yF aT aF bT bF cT cF : Bool, (cT ^^ cF) = ((aT ^^ aF) && (bT ^^ bF)) →
    (((cT ^^ (((xT ^^ aT) ^^ (xF ^^ aF)) && bT) ^^ (((yT ^^ bT) ^^ (yF ^^ bF)) && aT)) ^^
        (((xT ^^ aT) ^^ (xF ^^ aF)) && ((yT ^^ bT) ^^ (yF ^^ bF)))) ^^
      (cF ^^ (((xF ^^ aF) ^^ (xT ^^ aT)) && bF) ^^ (((yF ^^ bF) ^^ (yT ^^ bT)) && aF))) =
    ((xT ^^ xF) && (yT ^^ yF)) := by decide

theorem computecw_ok (bit suml sumr : Bool → Key) (bl br : Bool → Key × Key × Key)
    (hl : (bl true).2.2 ^^^ (bl false).2.2 = ((bl true).1 ^^^ (bl false).1) &&& ((bl true).2.1 ^^^ (bl false).2.1))
    (hr : (br true).2.2 ^^^ (br false).2.2 = ((br true).1 ^^^ (br false).1) &&& ((br true).2.1 ^^^ (br false).2.1)) :
    computecw bit suml sumr bl br true ^^^ computecw bit suml sumr bl br false =
      ((bit true ^^^ bit false) &&& (suml true ^^^ suml false)) ^^^
        (~~~(bit true ^^^ bit false) &&& (sumr true ^^^ sumr false)) := by
  apply xor_bits
  intro k hk
  have hl' := congrArg (fun z => BitVec.getLsbD z k) hl
  have hr' := congrArg (fun z => BitVec.getLsbD z k) hr
  simp only [BitVec.getLsbD_xor, BitVec.getLsbD_and] at hl' hr'
  have ha := beaver_bit ((bit true).getLsbD k) ((bit false).getLsbD k) ((suml true).getLsbD k)
    ((suml false).getLsbD k) _ _ _ _ _ _ hl'
  have hb := beaver_bit ((bit true).getLsbD k ^^ true) ((bit false).getLsbD k) ((sumr true).getLsbD k)
    ((sumr false).getLsbD k) _ _ _ _ _ _ hr'
  simp only [computecw, if_true, Bool.false_eq_true, if_false, Bool.not_true, Bool.not_false, BitVec.getLsbD_xor,
    BitVec.getLsbD_and, BitVec.getLsbD_not, hk, decide_true, Bool.true_and, BitVec.getLsbD_allOnes]
  have e1 : ∀ p q r s : Bool, ((p ^^ q) ^^ (r ^^ s)) = ((p ^^ r) ^^ (q ^^ s)) := by decide
  rw [e1, ha, hb]
  have e2 : ∀ p q : Bool, ((p ^^ true) ^^ q) = !(p ^^ q) := by decide
  rw [e2]

theorem computecw_swap (bit suml sumr : Bool → Key) (bl br : Bool → Key × Key × Key) (p : Bool) :
    computecw bit suml sumr bl br p ^^^ computecw bit suml sumr bl br (!p) =
    computecw bit suml sumr bl br true ^^^ computecw bit suml sumr bl br false := by
  cases p
  · rw [Bool.not_false, BitVec.xor_comm]
  · rfl

/-! ### Layers -/

theorem childSum_succ (c : ℕ → Key) (h s : ℕ) : childSum c (h + 1) s = childSum c h s ^^^ c (2 * h + s) := by
  simp [childSum, List.range_succ]

theorem childSum_diff (c d : ℕ → Key) (s a : ℕ) : ∀ h, (∀ i, i < h → i ≠ a → c (2 * i + s) = d (2 * i + s)) →
    childSum c h s ^^^ childSum d h s = if a < h then c (2 * a + s) ^^^ d (2 * a + s) else 0 := by
  intro h
  induction h with
  | zero => intro _; simp [childSum]
  | succ h ih =>
    intro hh
    have ih := ih fun i hi => hh i (by omega)
    rw [childSum_succ, childSum_succ]
    have e1 : ∀ p q r t : Key, (p ^^^ q) ^^^ (r ^^^ t) = (p ^^^ r) ^^^ (q ^^^ t) := by
      intro p q r t
      apply xor_bits; intro k _
      simp only [BitVec.getLsbD_xor]
      cases p.getLsbD k <;> cases q.getLsbD k <;> cases r.getLsbD k <;> cases t.getLsbD k <;> rfl
    rw [e1, ih]
    by_cases ha : a < h
    · rw [if_pos ha, if_pos (by omega), hh h (by omega) (by omega)]; simp
    · rw [if_neg ha]
      by_cases hb : a = h
      · subst hb; rw [if_pos (by omega)]; simp
      · rw [if_neg (by omega), hh h (by omega) (by omega)]; simp

/-- all-ones or zero -/
def maskOf (b : Bool) : Key := if b then BitVec.allOnes 128 else 0

theorem dpfBit_xor (x y : Key) (num l : ℕ) :
    dpfBit x num l ^^^ dpfBit y num l = maskOf ((x ^^^ y).getLsbD (num - 1 - l)) := by
  unfold dpfBit maskOf
  rw [BitVec.getLsbD_xor]
  cases x.getLsbD (num - 1 - l) <;> cases y.getLsbD (num - 1 - l) <;> decide

theorem maskOf_sel (b : Bool) (x y : Key) : (maskOf b &&& x) ^^^ (~~~maskOf b &&& y) = if b then x else y := by
  apply xor_bits
  intro k hk
  cases b
  · simp only [maskOf, BitVec.getLsbD_xor, BitVec.getLsbD_and, BitVec.getLsbD_not, hk]; simp
  · simp only [maskOf, BitVec.getLsbD_xor, BitVec.getLsbD_and, BitVec.getLsbD_not, if_true, BitVec.getLsbD_allOnes, hk]
    simp

theorem maskIf_sel (b : Bool) (x : Key) : ((if b then BitVec.allOnes 128 else 0) &&& x) = if b then x else 0 := by
  apply xor_bits
  intro k hk
  cases b
  · simp
  · simp only [BitVec.getLsbD_and, if_true, BitVec.getLsbD_allOnes, hk]; simp

theorem lsb_xor (x y : Key) : lsb (x ^^^ y) = (lsb x ^^ lsb y) := by
  simp [lsb, BitVec.getLsbD_xor]

theorem lsb_mask (b : Bool) : lsb (maskOf b) = b := by cases b <;> decide

theorem dpfLayer_ok {f : Bool → Key → Key} (hf : f true = f false) {sz half a : ℕ} {bit : Bool → Key}
    {bl br : Bool → Key × Key × Key} {β : Bool} (hbit : bit true ^^^ bit false = maskOf β)
    (hl : (bl true).2.2 ^^^ (bl false).2.2 = ((bl true).1 ^^^ (bl false).1) &&& ((bl true).2.1 ^^^ (bl false).2.1))
    (hr : (br true).2.2 ^^^ (br false).2.2 = ((br true).1 ^^^ (br false).1) &&& ((br true).2.1 ^^^ (br false).2.1))
    {s : Bool → DpfLayer} (hs : DpfOk sz a s) (hsz : half ≤ sz) :
    DpfOk (half * 2) (2 * a + β.toNat) (dpfLayer f half bit bl br s) := by
  -- the children before correction
  set cT := lengthDoubling (f true) (s true).v with hcT
  set cF := lengthDoubling (f false) (s false).v with hcF
  have hoff : ∀ i, i / 2 < half → i / 2 ≠ a → cT i = cF i := by
    intro i hi ha
    have e := hs.off_v (i / 2) (by omega) ha
    rw [hcT, hcF]
    simp only [lengthDoubling, hf, e]
  have hL := childSum_diff cT cF 0 a half (fun i hi ha => hoff _ (by omega) (by omega))
  have hR := childSum_diff cT cF 1 a half (fun i hi ha => hoff _ (by omega) (by omega))
  -- the correction word
  obtain ⟨cw, hcw⟩ : ∃ cw, cw = computecw bit (fun p => childSum (lengthDoubling (f p) (s p).v) half 0)
      (fun p => childSum (lengthDoubling (f p) (s p).v) half 1) bl br true ^^^ computecw bit
      (fun p => childSum (lengthDoubling (f p) (s p).v) half 0)
      (fun p => childSum (lengthDoubling (f p) (s p).v) half 1) bl br false := ⟨_, rfl⟩
  have hv : ∀ p i, (dpfLayer f half bit bl br s p).v i =
      lengthDoubling (f p) (s p).v i ^^^ ((if (s p).e (i / 2) then BitVec.allOnes 128 else 0) &&& cw) := by
    intro p i
    rw [hcw, ← computecw_swap _ _ _ _ _ p]
    rfl
  have hcw2 := hcw
  rw [computecw_ok _ _ _ _ _ hl hr, hbit, ← hcT, ← hcF, hL, hR] at hcw2
  -- the correction flags
  have he : ∀ p i, (dpfLayer f half bit bl br s p).e i = (lsb (lengthDoubling (f p) (s p).v i) ^^ ((s p).e (i / 2) &&
      (if i % 2 = 0 then lsb (childSum cT half 0 ^^^ childSum cF half 0) ^^ !β
        else lsb (childSum cT half 1 ^^^ childSum cF half 1) ^^ β))) := by
    intro p i
    have hb : β = (lsb (bit true) ^^ lsb (bit false)) := by rw [← lsb_xor, hbit, lsb_mask]
    rw [lsb_xor, lsb_xor, hb]
    show (_ ^^ ((s p).e (i / 2) && (if i % 2 = 0 then _ else _))) = _
    congr 2
    cases p
    · simp only [Bool.not_false, ← hcT, ← hcF]
      generalize lsb (childSum cT half 0) = p1
      generalize lsb (childSum cF half 0) = p2
      generalize lsb (childSum cT half 1) = p3
      generalize lsb (childSum cF half 1) = p4
      generalize lsb (bit true) = p5
      generalize lsb (bit false) = p6
      split <;> revert p1 p2 p3 p4 p5 p6 <;> decide
    · simp only [Bool.not_true, ← hcT, ← hcF]
      generalize lsb (childSum cT half 0) = p1
      generalize lsb (childSum cF half 0) = p2
      generalize lsb (childSum cT half 1) = p3
      generalize lsb (childSum cF half 1) = p4
      generalize lsb (bit true) = p5
      generalize lsb (bit false) = p6
      split <;> revert p1 p2 p3 p4 p5 p6 <;> decide
  rw [hL, hR] at he
  -- the node on the path
  have honpath : ∀ i, i / 2 = a → i < half * 2 → (s true).e (i / 2) = !(s false).e (i / 2) := by
    intro i ha hi
    have := hs.on_e (by omega)
    rw [ha]
    revert this
    cases (s true).e a <;> cases (s false).e a <;> simp
  refine ⟨fun k hk hne => ?_, fun k hk hne => ?_, fun ha => ?_⟩
  · rw [hv, hv, ← hcT, ← hcF]
    by_cases h : k / 2 = a
    · have hx := honpath k h hk
      have haL : a < half := by omega
      have key : cT k ^^^ cF k = cw := by
        rw [hcw2, if_pos haL, if_pos haL, maskOf_sel]
        cases β
        · have : k = 2 * a + 1 := by
            simp at hne; omega
          subst this
          rfl
        · have : k = 2 * a + 0 := by
            simp at hne; omega
          subst this
          rfl
      have e2 : cT k = cF k ^^^ cw := by
        rw [← key, BitVec.xor_comm (cT k), ← BitVec.xor_assoc]; simp
      rw [e2, hx, maskIf_sel, maskIf_sel]
      cases (s false).e (k / 2) <;> simp [BitVec.xor_assoc]
    · rw [hoff k (by omega) h, hs.off_e (k / 2) (by omega) h]
  · rw [he, he, ← hcT, ← hcF]
    by_cases h : k / 2 = a
    · have hx := honpath k h hk
      have haL : a < half := by omega
      rw [if_pos haL, if_pos haL, hx, lsb_xor, lsb_xor]
      cases β
      · have : k = 2 * a + 1 := by
          simp at hne; omega
        subst this
        have e2 : (2 * a + 1) % 2 = 1 := by omega
        simp only [e2, one_ne_zero, if_false, if_true]
        generalize lsb (cT (2 * a + 1)) = p1
        generalize lsb (cF (2 * a + 1)) = p2
        generalize (s false).e ((2 * a + 1) / 2) = p3
        revert p1 p2 p3; decide
      · have : k = 2 * a + 0 := by
          simp at hne; omega
        subst this
        have e2 : (2 * a + 0) % 2 = 0 := by omega
        simp only [e2, one_ne_zero, if_false, if_true]
        generalize lsb (cT (2 * a + 0)) = p1
        generalize lsb (cF (2 * a + 0)) = p2
        generalize (s false).e ((2 * a + 0) / 2) = p3
        revert p1 p2 p3; decide
    · rw [hoff k (by omega) h, hs.off_e (k / 2) (by omega) h]
  · rw [he, he, ← hcT, ← hcF]
    have haL : a < half := by
      have := Bool.toNat_lt β
      omega
    have hx := honpath (2 * a + β.toNat) (by have := Bool.toNat_lt β; omega) ha
    rw [if_pos haL, if_pos haL, hx, lsb_xor, lsb_xor]
    cases β
    · have e2 : (2 * a + false.toNat) % 2 = 0 := by simp
      simp only [e2, one_ne_zero, if_false, if_true]
      simp only [Bool.toNat_false]
      generalize lsb (cT (2 * a + 0)) = p1
      generalize lsb (cF (2 * a + 0)) = p2
      generalize (s false).e ((2 * a + 0) / 2) = p3
      revert p1 p2 p3; decide
    · have e2 : (2 * a + true.toNat) % 2 = 1 := by simp
      simp only [e2, one_ne_zero, if_false, if_true]
      simp only [Bool.toNat_true]
      generalize lsb (cT (2 * a + 1)) = p1
      generalize lsb (cF (2 * a + 1)) = p2
      generalize (s false).e ((2 * a + 1) / 2) = p3
      revert p1 p2 p3; decide

theorem prefix_step (τ : ℕ) {depth l : ℕ} (hl : l < depth) :
    2 * (τ % 2 ^ depth / 2 ^ (depth - l)) + (τ.testBit (depth - 1 - l)).toNat =
      τ % 2 ^ depth / 2 ^ (depth - (l + 1)) := by
  have e : depth - l = (depth - (l + 1)) + 1 := by omega
  rw [e, pow_succ, ← Nat.div_div_eq_div_mul]
  have e2 : depth - 1 - l = depth - (l + 1) := by omega
  rw [e2]
  have h3 : τ.testBit (depth - (l + 1)) = (τ % 2 ^ depth).testBit (depth - (l + 1)) := by
    rw [Nat.testBit_mod_two_pow]
    simp; intro; omega
  rw [h3, Nat.toNat_testBit]
  omega

/-- distributed point functions, for every number of leaves, all seeds, target shares and generators -/
theorem dpfGen_ok {f : Bool → Key → Key} (hf : f true = f false) (n : ℕ) (root target : Bool → Key)
    {tri : Bool → ℕ → Key × Key × Key} (ht : ∀ i, (tri true i).2.2 ^^^ (tri false i).2.2 =
      ((tri true i).1 ^^^ (tri false i).1) &&& ((tri true i).2.1 ^^^ (tri false i).2.1)) (hn : 0 < n) :
    ∃ s, dpfGen f n root target tri = some s ∧
      DpfOk n ((target true ^^^ target false).toNat % 2 ^ Nat.clog 2 n) s := by
  set τ := (target true ^^^ target false).toNat with hτ
  set depth := log2Ceil n with hdepth
  have key : ∀ l, l ≤ depth → ∃ st : ℕ × (Bool → DpfLayer),
      (List.range l).foldlM (m := Option) (fun (st : ℕ × (Bool → DpfLayer)) l =>
        let half := dpfHalf n depth l st.1
        if half ≤ st.1 then
          some (half * 2, dpfLayer f half (fun p => dpfBit (target p) depth l) (fun p => tri p (l * 2))
            (fun p => tri p (l * 2 + 1)) st.2)
        else none) (1, fun p => ⟨fun _ => setLsb (root p) (!p), fun _ => !p⟩) = some st ∧
      (if l = depth then n ≤ st.1 else st.1 = 2 ^ l) ∧ DpfOk st.1 (τ % 2 ^ depth / 2 ^ (depth - l)) st.2 := by
    intro l
    induction l with
    | zero =>
      intro _
      have hpos : τ % 2 ^ depth / 2 ^ (depth - 0) = 0 := by
        rw [Nat.sub_zero]; exact Nat.div_eq_of_lt (Nat.mod_lt _ (by positivity))
      refine ⟨_, rfl, ?_, ?_, ?_, ?_⟩
      · split
        · have := le_pow_log2Ceil n
          rw [← hdepth, ← ‹0 = depth›] at this
          simpa using this
        · rfl
      · intro k hk hne; rw [hpos] at hne; simp at hk; omega
      · intro k hk hne; rw [hpos] at hne; simp at hk; omega
      · intro _; simp
    | succ l ih =>
      intro hl
      obtain ⟨st, h1, h2, h3⟩ := ih (by omega)
      rw [if_neg (by omega)] at h2
      rw [List.range_succ, List.foldlM_append, h1]
      simp only [List.foldlM_cons, List.foldlM_nil, Option.bind_eq_bind, Option.bind_some]
      have hh : dpfHalf n depth l st.1 ≤ st.1 := by
        unfold dpfHalf
        split
        · have := le_pow_log2Ceil n
          rw [← hdepth, ← ‹l + 1 = depth›, pow_succ] at this
          rw [h2]
          split <;> omega
        · exact le_refl _
      rw [if_pos hh]
      refine ⟨_, rfl, ?_, ?_⟩
      · split
        · unfold dpfHalf
          rw [if_pos ‹_›]
          dsimp only
          split <;> omega
        · unfold dpfHalf
          rw [if_neg ‹_›]
          dsimp only
          rw [h2, pow_succ]
      · rw [← prefix_step τ (show l < depth by omega)]
        exact dpfLayer_ok hf (by rw [dpfBit_xor]; rfl) (ht _) (ht _) h3 hh
  obtain ⟨st, h1, h2, h3⟩ := key depth (le_refl _)
  rw [if_pos rfl] at h2
  refine ⟨st.2, ?_, ?_⟩
  · unfold dpfGen
    simp only [← hdepth]
    rw [h1]
    simp [h2]
  · rw [Nat.sub_self, pow_zero, Nat.div_one] at h3
    rw [← log2Ceil_clog, ← hdepth]
    exact ⟨fun k hk => h3.off_v k (by omega), fun k hk => h3.off_e k (by omega), fun h => h3.on_e (by omega)⟩

/-! ### From flags to ring elements -/

section
variable {w : ℕ}

theorem foldl_add_range (g : ℕ → BitVec w) (n : ℕ) :
    (List.range n).foldl (fun acc i => acc + g i) 0 = ∑ i ∈ Finset.range n, g i := by
  induction n with
  | zero => rfl
  | succ n ih => rw [List.range_succ, List.foldl_append, ih, Finset.sum_range_succ]; rfl

theorem foldl_sub_range (g : ℕ → BitVec w) (n : ℕ) :
    (List.range n).foldl (fun acc i => acc - g i) 0 = -∑ i ∈ Finset.range n, g i := by
  induction n with
  | zero => simp
  | succ n ih =>
    rw [List.range_succ, List.foldl_append, ih, Finset.sum_range_succ]
    simp only [List.foldl_cons, List.foldl_nil]
    ring

theorem sum_unit (g : ℕ → BitVec w) (n a : ℕ) :
    ∑ i ∈ Finset.range n, unitVec w a i * g i = if a < n then g a else 0 := by
  simp only [unitVec, ite_mul, one_mul, zero_mul]
  rw [Finset.sum_ite_eq' (Finset.range n) a g]
  simp

theorem mul2pc_ok (x y : Bool → BitVec w) {t : Bool → BitVec w × BitVec w × BitVec w}
    (ht : (t true).2.2 + (t false).2.2 = ((t true).1 + (t false).1) * ((t true).2.1 + (t false).2.1)) :
    mul2pc x y t true + mul2pc x y t false = (x true + x false) * (y true + y false) := by
  simp only [mul2pc, if_true, Bool.false_eq_true, if_false, Bool.not_true, Bool.not_false]
  linear_combination ht

theorem onehotB2A_ok {n a : ℕ} {e v : Bool → ℕ → BitVec w} (r : Bool → BitVec w)
    {t : Bool → BitVec w × BitVec w × BitVec w}
    (ht : (t true).2.2 + (t false).2.2 = ((t true).1 + (t false).1) * ((t true).2.1 + (t false).2.1))
    {u V : BitVec w} (hu : u * u = 1) (he : ∀ k, k < n → e true k + e false k = unitVec w a k * u)
    (hv : ∀ k, k < n → v true k + v false k = unitVec w a k * V) :
    Opens2 (onehotB2A n e v r t) n (unitVec w a) := by
  intro k hk
  set PT := ∑ i ∈ Finset.range n, e true i
  set PF := ∑ i ∈ Finset.range n, e false i
  set GT := ∑ i ∈ Finset.range n, v true i
  set GF := ∑ i ∈ Finset.range n, v false i
  have hP : PT + PF = if a < n then u else 0 := by
    rw [← sum_unit (fun _ => u), ← Finset.sum_add_distrib]
    exact Finset.sum_congr rfl fun i hi => he i (Finset.mem_range.1 hi)
  have hG : GT + GF = if a < n then V else 0 := by
    rw [← sum_unit (fun _ => V), ← Finset.sum_add_distrib]
    exact Finset.sum_congr rfl fun i hi => hv i (Finset.mem_range.1 hi)
  have hm := mul2pc_ok (fun p => (List.range n).foldl (fun acc i => acc + e p i) 0)
    (fun p => (List.range n).foldl (fun acc i => acc - v p i) 0) ht
  simp only [onehotB2A, Bool.not_true, Bool.not_false]
  simp only [foldl_add_range, foldl_sub_range] at hm ⊢
  set zT := mul2pc (fun p => ∑ i ∈ Finset.range n, e p i) (fun p => -∑ i ∈ Finset.range n, v p i) t true
  set zF := mul2pc (fun p => ∑ i ∈ Finset.range n, e p i) (fun p => -∑ i ∈ Finset.range n, v p i) t false
  have hm' : zT + zF = -((PT + PF) * (GT + GF)) := by rw [hm]; ring
  have he := he k hk
  have hv := hv k hk
  have main : ∀ A B : BitVec w, PT + PF = A → GT + GF = B →
      e true k * (PT + r true + (PF + r false)) - v true k - e true k * (zT + r true + (zF + r false)) +
      (e false k * (PF + r false + (PT + r true)) - v false k - e false k * (zF + r false + (zT + r true))) =
      unitVec w a k * u * (A + A * B) - unitVec w a k * V := by
    intro A B hA hB
    rw [hA, hB] at hm'
    rw [← he, ← hv]
    linear_combination (e true k + e false k) * hA - (e true k + e false k) * hm'
  rw [main _ _ hP hG]
  by_cases ha : a < n
  · rw [if_pos ha, if_pos ha]
    linear_combination unitVec w a k * (1 + V) * hu
  · rw [if_neg ha, if_neg ha]
    have : unitVec w a k = 0 := by
      unfold unitVec; rw [if_neg (by omega)]
    rw [this]; ring

theorem dpfCast_ok {n a : ℕ} {s : Bool → DpfLayer} (h : DpfOk n a s) : ∃ u V : BitVec w, u * u = 1 ∧
    (∀ k, k < n → dpfCastE w s true k + dpfCastE w s false k = unitVec w a k * u) ∧
    (∀ k, k < n → dpfCastV w s true k + dpfCastV w s false k = unitVec w a k * V) := by
  refine ⟨if (s false).e a then 1 else -1, ((s false).v a).setWidth w - ((s true).v a).setWidth w, ?_, ?_, ?_⟩
  · split <;> ring
  · intro k hk
    simp only [dpfCastE, if_true, Bool.false_eq_true, if_false, unitVec]
    by_cases hka : k = a
    · subst hka
      have := h.on_e hk
      revert this
      cases (s true).e k <;> cases (s false).e k <;> simp
    · rw [h.off_e k hk hka, if_neg hka]; ring
  · intro k hk
    simp only [dpfCastV, if_true, Bool.false_eq_true, if_false, unitVec]
    by_cases hka : k = a
    · subst hka; rw [if_pos rfl]; ring
    · rw [h.off_v k hk hka, if_neg hka]; ring

/-! ### Rounds -/

variable {σ : Type} {Inv : σ → Prop} {E : Env σ}

/-- one round: for all seeds, keys, correlated words and masks the two parties obtain additive shares of the
unit vector of the target -/
theorem dpfRound_ok (hE : EnvOk3 E Inv) (j : Fin 3) {n : ℕ} (hn : 0 < n) {f : Bool → Key → Key}
    (hf : f true = f false) (root : Bool → Key) (target : Bool → BitVec w) {X : BitVec w} (h128 : w ≤ 128)
    (hX : target true ^^^ target false = X) :
    Ok Inv (dpfRound E j n f root target) (fun o => Opens2 o n (unitVec w (oramPos n X))) := by
  unfold dpfRound
  refine Ok.bind (hE.prss 128 _ _ (dpfScript_fits j)) fun d hd => ?_
  obtain ⟨s, hs, hok⟩ := dpfGen_ok hf n root (fun p => (target p).setWidth 128)
    (tri := oramBeaver (· &&& ·) (· ^^^ ·) (· ^^^ ·) j (log2Ceil n * 2) d) (fun i => oramBeaver_and hd j _ i) hn
  have hpos : ((target true).setWidth 128 ^^^ (target false).setWidth 128).toNat = X.toNat := by
    rw [← BitVec.setWidth_xor, hX, BitVec.toNat_setWidth]
    exact Nat.mod_eq_of_lt (lt_of_lt_of_le X.isLt (Nat.pow_le_pow_right (by norm_num) h128))
  rw [hpos] at hok
  refine Ok.liftO hs ?_
  refine Ok.bind (hE.priv w 1 j) fun rP _ => Ok.bind (hE.priv w 1 (j + 2)) fun rQ _ =>
    Ok.bind (hE.prss w _ _ (dpfScript_fits j)) fun m hm => Ok.pure ?_
  obtain ⟨u, V, hu, h1, h2⟩ := dpfCast_ok (w := w) hok
  exact onehotB2A_ok _ (oramBeaver_mul hm j 1 0) hu h1 h2

/-! ### Reading -/

theorem rowTimes_sum (n : ℕ) (o : ℕ → BitVec w) (db : ℕ → ℕ → BitVec w) (c : ℕ) :
    rowTimes n o db c = ∑ k ∈ Finset.range n, o k * db k c := foldl_add_range _ n

theorem shiftPos_eq {n : ℕ} {offset : ℤ} (ho : offset ≤ n) {i : ℕ} (hi : i < n) :
    shiftPos n offset i = some (((i : ℤ) - offset) % n).toNat := by
  unfold shiftPos
  split
  · subst ‹offset = 0›
    congr 1
    rw [sub_zero, Int.emod_eq_of_lt (by omega) (by omega)]; simp
  · have h0 : ((i : ℤ) - offset + n).tmod n = ((i : ℤ) - offset) % n := by
      rw [Int.tmod_eq_emod_of_nonneg (by omega), Int.add_emod_right]
    rw [if_neg (by omega)]
    simp only [h0]
    rw [if_neg (by have := Int.emod_nonneg ((i : ℤ) - offset) (show (n : ℤ) ≠ 0 by omega); omega)]

theorem mapM_some_range {α : Type} (g : ℕ → α) (h : ℕ → Option α) : ∀ n, (∀ i, i < n → h i = some (g i)) →
    (List.range n).mapM h = some ((List.range n).map g) := by
  intro n
  induction n with
  | zero => intro _; rfl
  | succ n ih =>
    intro hh
    rw [List.range_succ, List.mapM_append, ih fun i hi => hh i (by omega)]
    simp [hh n (by omega)]

theorem shiftVec_ok {n : ℕ} {offset : ℤ} (ho : offset ≤ n) : ∃ p, shiftVec n offset = some p ∧
    ∀ i, i < n → p i = (((i : ℤ) - offset) % n).toNat := by
  refine ⟨fun i => ((List.range n).map fun i : ℕ => (((i : ℤ) - offset) % n).toNat).getD i 0, ?_, ?_⟩
  · unfold shiftVec
    rw [mapM_some_range _ _ n fun i hi => shiftPos_eq ho hi]
    rfl
  · intro i hi
    simp [List.getD_eq_getElem?_getD, hi]

theorem shiftVec_none {n : ℕ} {offset : ℤ} (hn : 2 ≤ n) (ho : (n : ℤ) < offset) : shiftVec n offset = none := by
  have bad : ∃ i, i < n ∧ shiftPos n offset i = none := by
    by_cases h : ((n : ℤ) - offset).tmod n < 0
    · refine ⟨0, by omega, ?_⟩
      unfold shiftPos
      rw [if_neg (by omega), if_neg (by omega)]
      have e : ((0 : ℕ) : ℤ) - offset + n = n - offset := by push_cast; ring
      simp only [e, if_pos h]
    · refine ⟨1, by omega, ?_⟩
      unfold shiftPos
      rw [if_neg (by omega), if_neg (by omega)]
      have e : ((1 : ℕ) : ℤ) - offset + n = -(offset - n - 1) := by push_cast; ring
      have h1 : ((n : ℤ) - offset) = -(offset - n) := by ring
      rw [h1, Int.neg_tmod, Int.tmod_eq_emod_of_nonneg (by omega)] at h
      have h2 : (offset - n) % n = 0 := by
        have := Int.emod_nonneg (offset - n) (show (n : ℤ) ≠ 0 by omega)
        omega
      have h3 : ((offset - n - 1).tmod n) = n - 1 := by
        rw [Int.tmod_eq_emod_of_nonneg (by omega), Int.sub_emod, h2, Int.emod_eq_of_lt (a := 1) (by omega) (by omega),
          zero_sub]
        rw [show (-1 : ℤ) = (n - 1) - n by ring, Int.sub_emod_right, Int.emod_eq_of_lt (by omega) (by omega)]
      simp only [e, Int.neg_tmod, h3]
      rw [if_pos (by omega)]
  obtain ⟨i, hi, hb⟩ := bad
  unfold shiftVec
  have : (List.range n).mapM (shiftPos n offset) = none := by
    have gen : ∀ l : List ℕ, i ∈ l → l.mapM (shiftPos n offset) = none := by
      intro l
      induction l with
      | nil => intro h; simp at h
      | cons x xs ih =>
        intro h
        rw [List.mapM_cons]
        rcases List.mem_cons.1 h with rfl | h
        · rw [hb]; rfl
        · rw [ih h]
          cases shiftPos n offset x <;> rfl
    exact gen _ (List.mem_range.2 hi)
  rw [this]
  rfl

/-- the unit vector, rotated, picks a row -/
theorem shifted_unit {n a : ℕ} {offset : ℤ} {p : ℕ → ℕ} (hp : ∀ i, i < n → p i = (((i : ℤ) - offset) % n).toNat)
    (D : ℕ → ℕ → BitVec w) (c : ℕ) :
    ∑ k ∈ Finset.range n, unitVec w a (p k) * D k c = oramValue n a offset D c := by
  unfold oramValue
  by_cases ha : a < n
  · rw [if_pos ha]
    set q := (((a : ℤ) + offset) % n).toNat with hq
    have hn0 : (n : ℤ) ≠ 0 := by omega
    have hq0 := Int.emod_nonneg ((a : ℤ) + offset) hn0
    have hq1 := Int.emod_lt_of_pos ((a : ℤ) + offset) (show (0 : ℤ) < n by omega)
    have hqz : (q : ℤ) = ((a : ℤ) + offset) % n := by omega
    rw [← sum_unit (fun k => D k c) n q |>.trans (if_pos (show q < n by omega))]
    refine Finset.sum_congr rfl fun k hk => ?_
    have hk := Finset.mem_range.1 hk
    congr 1
    unfold unitVec
    congr 1
    rw [hp k hk]
    have hk0 := Int.emod_nonneg ((k : ℤ) - offset) hn0
    apply propext
    constructor
    · intro h
      have h1 : ((k : ℤ) - offset) % n = a := by omega
      have : ((k : ℤ)) % n = ((a : ℤ) + offset) % n := by
        rw [← h1, Int.emod_add_emod]; congr 1; ring
      rw [Int.emod_eq_of_lt (by omega) (by omega)] at this
      omega
    · intro h
      have : ((k : ℤ) - offset) % n = (a : ℤ) % n := by
        rw [h, hqz, Int.emod_sub_emod]; congr 1; ring
      rw [Int.emod_eq_of_lt (a := (a : ℤ)) (by omega) (by omega)] at this
      omega
  · rw [if_neg ha]
    refine Finset.sum_eq_zero fun k hk => ?_
    have hk := Finset.mem_range.1 hk
    have h2 := Int.emod_lt_of_pos ((k : ℤ) - offset) (show (0 : ℤ) < n by omega)
    have : p k ≠ a := by rw [hp k hk]; omega
    simp [unitVec, this]

end

end Spu.Lemmas

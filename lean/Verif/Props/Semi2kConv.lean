import Verif.Props.Semi2kSys
import Verif.Lemmas.Word

set_option autoImplicit false
set_option linter.unusedSectionVars false

/-!
# C25: semi2k share conversions preserve the shared value
-/

namespace Spu.Props
open Spu.Model Spu.Model.Circ Spu.Model.Bits Spu.Model.Semi2k Spu.Model.Semi2kConv Spu.Spec Spu.Lemmas

/-! ### tree reduction -/

section
variable {σ α A : Type} {Inv : σ → Prop}

theorem Ok.mapM {β γ : Type} {f : β → Spu.Model.Circ.M σ γ} {R : β → γ → Prop} (h : ∀ a, Ok Inv (f a) (R a)) :
    ∀ l : List β, Ok Inv (l.mapM f) (fun bs => List.Forall₂ R l bs)
  | [] => by rw [List.mapM_nil]; exact Ok.pure .nil
  | a :: l => by
    rw [List.mapM_cons]
    exact Ok.bind (h a) fun b hb => Ok.bind (Ok.mapM h l) fun bs hbs => Ok.pure (.cons hb hbs)

theorem vmap2_ok [Add A] {op : α → α → Spu.Model.Circ.M σ α} {R : α → A → Prop}
    (hop : ∀ {a b x y}, R a x → R b y → Ok Inv (op a b) (fun c => R c (x + y))) {as bs : List α} {xs ys : List A}
    (ha : List.Forall₂ R as xs) : List.Forall₂ R bs ys → as.length = bs.length →
    Ok Inv (vmap2 op as bs) (fun cs => List.Forall₂ R cs (List.zipWith (· + ·) xs ys)) := by
  induction ha generalizing bs ys with
  | nil => intro _ _; exact Ok.pure .nil
  | cons h1 _ ih =>
    intro hb hlen
    cases hb with
    | nil => simp at hlen
    | cons h2 t2 =>
      exact Ok.bind (hop h1 h2) fun c hc => Ok.bind (ih t2 (by simpa using hlen)) fun cs hcs => Ok.pure (.cons hc hcs)

theorem zipWith_sum [AddCommMonoid A] : ∀ {xs ys : List A}, xs.length = ys.length →
    (List.zipWith (· + ·) xs ys).sum = xs.sum + ys.sum
  | [], [], _ => by simp
  | x :: xs, y :: ys, h => by
    rw [List.zipWith_cons_cons, List.sum_cons, List.sum_cons, List.sum_cons, zipWith_sum (by simpa using h)]
    exact add_add_add_comm x y _ _

/-- Tree reduction of any non-empty list, of any length, computes the sum. -/
theorem vreduceM_ok [AddCommMonoid A] {op : α → α → Spu.Model.Circ.M σ α} {R : α → A → Prop}
    {same : List α → Bool} (hsame : ∀ {l vs}, List.Forall₂ R l vs → same l = true)
    (hop : ∀ {a b x y}, R a x → R b y → Ok Inv (op a b) (fun c => R c (x + y))) (len : ℕ) :
    ∀ {l : List α} {vs : List A}, List.Forall₂ R l vs → l.length = len → 0 < len →
    Ok Inv (vreduceM same op len l) (fun c => R c vs.sum) := by
  induction len using Nat.strong_induction_on with
  | _ len ih =>
    intro l vs h hlen hpos
    unfold vreduceM
    by_cases h1 : 1 < len
    · rw [dif_pos h1]
      have hvl : vs.length = len := by rw [← h.length_eq, hlen]
      have hL : List.Forall₂ R (l.take (len / 2)) (vs.take (len / 2)) := List.forall₂_take _ h
      have hD : List.Forall₂ R (l.drop (len / 2)) (vs.drop (len / 2)) := List.forall₂_drop _ h
      have hR : List.Forall₂ R ((l.drop (len / 2)).take (len / 2)) ((vs.drop (len / 2)).take (len / 2)) :=
        List.forall₂_take _ hD
      have hT : List.Forall₂ R (l.drop (2 * (len / 2))) (vs.drop (2 * (len / 2))) := List.forall₂_drop _ h
      refine Ok.enforce (by rw [hsame hL, hsame hR]; rfl) ?_
      refine Ok.bind (vmap2_ok hop hL hR (by simp; omega)) fun cs hcs => ?_
      have hlenc : cs.length = len / 2 := by rw [hcs.length_eq]; simp; omega
      have hsplit : vs.sum = (List.zipWith (· + ·) (vs.take (len / 2)) ((vs.drop (len / 2)).take (len / 2))).sum
          + (vs.drop (2 * (len / 2))).sum := by
        rw [zipWith_sum (by simp; omega)]
        conv_lhs => rw [← List.take_append_drop (len / 2) vs, List.sum_append,
          ← List.take_append_drop (len / 2) (vs.drop (len / 2)), List.sum_append, List.drop_drop]
        rw [← add_assoc, show len / 2 + len / 2 = 2 * (len / 2) by omega]
      by_cases hodd : len % 2 = 1
      · simp only [hodd, if_true]
        have := ih (len / 2 + 1) (by omega) (List.rel_append hcs hT) (by simp [hlenc]; omega) (by omega)
        rw [List.sum_append, ← hsplit] at this
        exact this
      · simp only [hodd, if_false]
        have hnil : vs.drop (2 * (len / 2)) = [] := List.drop_eq_nil_of_le (by omega)
        have := ih (len / 2 + len % 2) (by omega) hcs (by omega) (by omega)
        rw [hsplit, hnil, List.sum_nil, add_zero]
        exact this
    · rw [dif_neg h1]
      have hl1 : len = 1 := by omega
      cases h with
      | nil => simp at hlen; omega
      | cons h0 t =>
        cases t with
        | nil => simp only [List.sum_cons, List.sum_nil, add_zero]; exact Ok.pure h0
        | cons _ _ => simp at hlen; omega

end

/-! ### arithmetic to boolean -/

section
variable {σ : Type} {n w : ℕ} [NeZero n] {E : Env σ n w} {Inv : σ → Prop}

theorem maskedShare_ok (hE : EnvOk E Inv) (x : Fin n → BitVec w) (idx : Fin n) :
    Ok Inv (maskedShare E x idx) (fun c => BRep c (x idx) ∧ c.nb = w) := by
  refine Ok.bind hE.prss fun ⟨r0, r1⟩ hr => Ok.pure ⟨⟨?_, (x idx).isLt, le_rfl⟩, rfl⟩
  have := xorAll_ite idx (fun i => r0 i ^^^ r1 i) x
  rw [xorAll_prss hr] at this
  rw [← BitVec.zero_xor (x := x idx)]
  refine Eq.trans ?_ this
  congr 1
  funext i
  by_cases h : idx = i
  · simp [h]
  · simp [h, Ne.symm h]

/-- A2B: the boolean shares open to the sum of the additive shares, for every number of parties. -/
theorem c25_a2b (hE : EnvOk E Inv) {M : ℕ} (hwM : w = 2 ^ M) (hw : 1 < w) (h128 : w ≤ 128) (x : Fin n → BitVec w) :
    Ok Inv (a2b E x) (fun c => BRep c (total x) ∧ c.nb = w) := by
  have S := c26_semi2k_gates hE hwM h128
  refine Ok.bind (Ok.mapM (maskedShare_ok hE x) (List.finRange n)) fun bs hbs => ?_
  have hR : List.Forall₂ (fun c v => BRep c v ∧ c.nb = w) bs ((List.finRange n).map x) := by
    rw [List.forall₂_map_right_iff]; exact hbs.flip
  have hlen : bs.length = n := by rw [← hbs.length_eq, List.length_finRange]
  refine Ok.bind (vreduceM_ok (R := fun (c : BShr n w) v => BRep c v ∧ c.nb = w) ?_ ?_ bs.length hR rfl
    (by rw [hlen]; exact Nat.pos_of_ne_zero (NeZero.ne n))) fun c hc => Ok.pure ?_
  · intro l vs h
    have : ∀ a ∈ l, a.nb = w := by
      intro a ha
      induction h with
      | nil => simp at ha
      | cons h1 _ ih =>
        rcases List.mem_cons.1 ha with rfl | h
        · exact h1.2
        · exact ih h
    exact decide_eq_true fun a ha b hb => by rw [this a ha, this b hb]
  · intro a b u v ha hb
    refine Ok.imp (c15_add_bb S hw ha.1 hb.1 (by show a.nb = b.nb; rw [ha.2, hb.2])) fun c hc => ⟨hc.1, ?_⟩
    have : c.nb = min (a.nb + 1) w := hc.2
    rw [this, ha.2]; omega
  · rw [sum_finRange] at hc
    exact ⟨⟨hc.1.1, (total x).isLt, le_rfl⟩, rfl⟩

/-- the top bit of a sum from the carry into it -/
theorem top_bit_of_carry (hw : 2 ≤ w) (x y : BitVec w) :
    ((x ^^^ y) >>> (w - 1)) ^^^ BitVec.ofNat w (carryOut x.toNat y.toNat (w - 1)) = BitVec.ofNat w (x + y).msb.toNat := by
  have hbit : ∀ (b : Bool) i, i < w → (BitVec.ofNat w b.toNat).getLsbD i = (b && decide (i = 0)) := by
    intro b i hi
    rw [BitVec.getLsbD_ofNat, decide_eq_true hi, Bool.true_and]
    cases b
    · simp
    · rcases i with _ | i
      · simp
      · simp [Nat.testBit_succ]
  rw [← cy_carryOut]
  refine BitVec.eq_of_getLsbD_eq fun i hi => ?_
  rw [BitVec.getLsbD_xor, hbit _ _ hi, hbit _ _ hi, BitVec.getLsbD_ushiftRight, BitVec.getLsbD_xor,
    BitVec.msb_eq_getLsbD_last, add_bit _ _ (by omega)]
  rcases i with _ | i
  · simp
  · rw [BitVec.getLsbD_of_ge _ (w - 1 + (i + 1)) (by omega), BitVec.getLsbD_of_ge _ (w - 1 + (i + 1)) (by omega)]
    simp

/-- Sign extraction (two parties): the result is a 1-bit sharing of the top bit of the opened value. -/
theorem c25_msb_a2b {E : Env σ 2 w} (hE : EnvOk E Inv) {M : ℕ} (hM : 2 ≤ M) (hwM : w = 2 ^ M) (h128 : w ≤ 128)
    (x : Fin 2 → BitVec w) :
    Ok Inv (msbA2B E x) (fun c => BRep c (BitVec.ofNat w (total x).msb.toNat) ∧ c.nb = 1) := by
  have S := c26_semi2k_gates hE hwM h128
  have h4 : 4 ≤ w := by rw [hwM]; calc 4 = 2 ^ 2 := rfl
    _ ≤ 2 ^ M := Nat.pow_le_pow_right (by norm_num) hM
  refine Ok.enforce rfl (Ok.bind (Ok.mapM (maskedShare_ok hE x) (List.finRange 2)) fun bs hbs => ?_)
  rw [show List.finRange 2 = [0, 1] from rfl] at hbs
  cases hbs with
  | cons ha t =>
    cases t with
    | cons hb t2 =>
      cases t2
      refine Ok.bind (c15_carry_a2b_top S hM hwM h128 ha.1 hb.1 ha.2 hb.2) fun c hc => ?_
      refine Ok.bind (xorBBK_ok ha.1 hb.1) fun s hs => Ok.bind (rshiftBK_ok (k := w - 1) (by omega) hs.1) fun t ht => ?_
      refine Ok.imp (xorBBK_ok ht.1 hc.1) fun r hr => ⟨?_, ?_⟩
      · have e : ((x 0 ^^^ x 1) >>> (w - 1)) ^^^ BitVec.ofNat w (carryOut (x 0).toNat (x 1).toNat (w - 1))
            = BitVec.ofNat w (total x).msb.toNat := by
          have ht : total x = x 0 + x 1 := by unfold total; rw [Fin.sum_univ_two]
          rw [ht]; exact top_bit_of_carry (by omega) _ _
        rw [← e]; exact hr.1
      · have h1 : r.nb = max t.nb c.nb := hr.2
        have h2 : t.nb = s.nb - (w - 1) := ht.2
        have h3 : s.nb = max _ _ := hs.2
        have h5 : c.nb = 1 := hc.2
        rw [h1, h2, h3, h5, ha.2, hb.2]; omega

/-- With any other number of parties the kernel refuses. -/
theorem c25_msb_a2b_rejects (hn : n ≠ 2) (x : Fin n → BitVec w) (s : σ) : msbA2B E x s = none := by
  simp [msbA2B, enforce, hn, failure, StateT.failure, Bind.bind, StateT.bind]

/-! ### equality with zero -/

theorem eqzLoop_ok (hE : EnvOk E Inv) (h128 : w ≤ 128) (j : ℕ) : ∀ {r : BShr n w} {y : BitVec w}, BRep r y → r.nb = w →
    2 ^ j ≤ w → Ok Inv (eqzLoop E r (2 ^ j)) (fun c => ∃ z, BRep c z ∧
      (z.getLsbD 0 = true ↔ ∀ i, i < 2 ^ j → y.getLsbD i = true)) := by
  induction j with
  | zero =>
    intro r y hr hn _
    unfold eqzLoop
    rw [dif_pos (by rfl)]
    refine Ok.pure ⟨y, hr, fun h i hi => ?_, fun h => h 0 (by norm_num)⟩
    have : i = 0 := by simpa using hi
    rw [this]; exact h
  | succ j ih =>
    intro r y hr hn hj
    have e2 : 2 ^ (j + 1) = 2 * 2 ^ j := by rw [pow_succ]; ring
    have hpos : 0 < 2 ^ j := Nat.two_pow_pos j
    unfold eqzLoop
    rw [dif_neg (by omega), dif_neg (by omega), show 2 ^ (j + 1) / 2 = 2 ^ j by omega]
    have hs : BRep ⟨rshiftB r.sh (2 ^ j), r.nb⟩ (y >>> 2 ^ j) :=
      ⟨(xorAll_map xlin_shr r.sh).trans (by rw [hr.1]), by show _ < 2 ^ r.nb; rw [hn]; exact BitVec.isLt _, hr.2.2⟩
    refine Ok.bind (andBBK_ok hE h128 hr hs) fun c ⟨hc, nc⟩ => ?_
    refine Ok.imp (ih hc (by rw [nc]; show min r.nb r.nb = w; rw [hn, min_self]) (by omega)) fun d ⟨z, hz, hiff⟩ => ⟨z, hz, ?_⟩
    rw [hiff]
    constructor
    · intro h i hi
      by_cases hlt : i < 2 ^ j
      · have := h i hlt
        rw [BitVec.getLsbD_and, Bool.and_eq_true] at this
        exact this.1
      · have := h (i - 2 ^ j) (by omega)
        rw [BitVec.getLsbD_and, BitVec.getLsbD_ushiftRight, Bool.and_eq_true] at this
        rw [show i = 2 ^ j + (i - 2 ^ j) by omega]
        exact this.2
    · intro h i hi
      rw [BitVec.getLsbD_and, BitVec.getLsbD_ushiftRight, h i (by omega), h _ (by omega)]; rfl

theorem eqz_ok (hE : EnvOk E Inv) {M : ℕ} (hwM : w = 2 ^ M) (h128 : w ≤ 128) (x : Fin n → BitVec w) :
    Ok Inv (eqz E x) (fun c => BRep c (if total x = 0 then 1 else 0)) := by
  have hw : 0 < w := by rw [hwM]; positivity
  refine Ok.bind hE.publ fun pv hpv => Ok.bind hE.eqz fun ⟨ra, rb⟩ hr => ?_
  have hn : 0 < n := Nat.pos_of_ne_zero (NeZero.ne n)
  have hc : ∀ i, allReduce (· + ·) (fun j => ra j + x j) i = total ra + total x := by
    intro i; rw [allReduce_add, total_add]
  have hrep : BRep (⟨fun i => if i.val = pv i % n then ~~~ (rb i ^^^ allReduce (· + ·) (fun j => ra j + x j) i) else rb i,
      w⟩ : BShr n w) (xorAll rb ^^^ ~~~ (total ra + total x)) := by
    refine ⟨?_, BitVec.isLt _, le_rfl⟩
    rw [← xorAll_ite (⟨pv 0 % n, Nat.mod_lt _ hn⟩ : Fin n) rb (fun _ => ~~~ (total ra + total x))]
    show xorAll _ = _
    congr 1
    funext i
    show (if i.val = pv i % n then ~~~ (rb i ^^^ allReduce (· + ·) (fun j => ra j + x j) i) else rb i) = _
    rw [hc i, hpv i 0]
    by_cases h : i.val = pv 0 % n
    · rw [if_pos h, if_pos (Fin.ext h)]
      refine BitVec.eq_of_getLsbD_eq fun q hq => ?_
      simp [hq]
    · rw [if_neg h, if_neg (fun h2 => h (by rw [h2]))]
  have hj := eqzLoop_ok hE h128 M hrep rfl hwM.ge
  rw [← hwM] at hj
  refine Ok.bind hj fun c ⟨z, hz, hiff⟩ => Ok.pure ?_
  have hval : (if total x = 0 then (1 : BitVec w) else 0) = z &&& 1 := by
    rw [and_one_bit]
    by_cases h0 : total x = 0
    · have : z.getLsbD 0 = true := hiff.2 fun i hi => by
        have hr' : total ra = xorAll rb := hr
        rw [h0, add_zero, hr', BitVec.getLsbD_xor, BitVec.getLsbD_not, decide_eq_true hi]
        cases (xorAll rb).getLsbD i <;> rfl
      rw [if_pos h0, this]; rfl
    · have : z.getLsbD 0 = false := by
        rw [Bool.eq_false_iff]
        intro hz1
        have := hiff.1 hz1
        apply h0
        have heq : xorAll rb = total ra + total x := by
          refine BitVec.eq_of_getLsbD_eq fun i hi => ?_
          have := this i hi
          rw [BitVec.getLsbD_xor, BitVec.getLsbD_not, decide_eq_true hi] at this
          revert this
          cases (xorAll rb).getLsbD i <;> cases (total ra + total x).getLsbD i <;> simp
        have hr' : total ra = xorAll rb := hr
        rw [hr'] at heq
        exact (add_eq_left.1 heq.symm)
      rw [if_neg h0, this]; rfl
  refine ⟨?_, ?_, le_rfl⟩
  · rw [hval]
    exact (xorAll_map (xlin_and 1) c.sh).trans (by rw [hz.1])
  · exact BitVec.isLt _

/-- equality of two additively shared values -/
theorem c25_equal_aa (hE : EnvOk E Inv) {M : ℕ} (hwM : w = 2 ^ M) (h128 : w ≤ 128) (x y : Fin n → BitVec w) :
    Ok Inv (equalAA E x y) (fun c => BRep c (if total x = total y then 1 else 0)) := by
  refine Ok.imp (eqz_ok hE hwM h128 _) fun c hc => ?_
  rw [total_sub] at hc
  simpa only [sub_eq_zero] using hc

/-- equality of an additively shared value with a public one -/
theorem c25_equal_ap (hE : EnvOk E Inv) {M : ℕ} (hwM : w = 2 ^ M) (h128 : w ≤ 128) (x : Fin n → BitVec w) (p : BitVec w) :
    Ok Inv (equalAP E x p) (fun c => BRep c (if total x = p then 1 else 0)) := by
  refine Ok.imp (eqz_ok hE hwM h128 _) fun c hc => ?_
  have : total (fun i : Fin n => if i = 0 then x i - p else x i) = total x - p := by
    have := total_ite_add (0 : Fin n) x (fun _ => -p)
    simp only [← sub_eq_add_neg] at this
    exact this
  rw [this] at hc
  simpa only [sub_eq_zero] using hc

/-! ### boolean to arithmetic -/

theorem lsb_total (hw : 0 < w) (s : Fin n → BitVec w) : (total s).getLsbD 0 = (xorAll s).getLsbD 0 := by
  unfold total xorAll
  rw [← List.sum_ofFn]
  generalize List.ofFn s = l
  induction l with
  | nil => rfl
  | cons a l ih =>
    rw [List.sum_cons, List.foldr_cons, BitVec.getLsbD_xor, ← ih, add_bit _ _ hw, cy_zero, Bool.xor_false]

theorem bitMask_bit {v nb : ℕ} (hv : nb ≤ v) (hw : 0 < w) (r : ℕ → Fin n → BitVec w) (i : Fin n) (q : ℕ) :
    (bitMask r nb i : BitVec v).getLsbD q = (decide (q < nb) && (r q i).getLsbD 0) := by
  unfold bitMask
  induction nb generalizing q with
  | zero => simp
  | succ k ih =>
    rw [List.range_succ, List.foldl_append, List.foldl_cons, List.foldl_nil]
    have hs : ∀ q, ((((r k i).setWidth v &&& 1) <<< k) : BitVec v).getLsbD q = (decide (q = k) && (r q i).getLsbD 0) := by
      intro q
      by_cases hq : q < v
      · rw [BitVec.getLsbD_shiftLeft, BitVec.getLsbD_and, one_bit, BitVec.getLsbD_setWidth, decide_eq_true hq]
        by_cases h : q = k
        · subst h
          simp [show 0 < v by omega]
        · rw [decide_eq_false h]
          by_cases h2 : q < k
          · simp [h2]
          · simp; omega
      · rw [BitVec.getLsbD_of_ge _ _ (by omega), decide_eq_false (by omega)]; rfl
    rw [BitVec.add_eq_or_of_and_eq_zero, BitVec.getLsbD_or, ih (by omega), hs]
    · by_cases h1 : q < k
      · simp [h1, show q < k + 1 by omega, show ¬ q = k by omega]
      · by_cases h2 : q = k
        · simp [h2]
        · simp [h1, h2, show ¬ q < k + 1 by omega]
    · refine BitVec.eq_of_getLsbD_eq fun q hq => ?_
      rw [BitVec.getLsbD_and, ih (by omega), hs]
      by_cases h1 : q < k
      · simp [show ¬ q = k by omega]
      · simp [h1]

theorem openXor_bit {v : ℕ} {a : BShr n w} {x : BitVec w} (ha : BRep a x) (hw : 0 < w) (hv : a.nb ≤ v)
    (r : ℕ → Fin n → BitVec w) (i : Fin n) {q : ℕ} (hq : q < a.nb) :
    (openXor a v r i).getLsbD q = (x.getLsbD q ^^ (total (r q)).getLsbD 0) := by
  unfold openXor
  rw [allReduce_xor, xorAll_xor, BitVec.getLsbD_xor, xorAll_map xlin_setWidth, ha.1, BitVec.getLsbD_setWidth,
    decide_eq_true (show q < v by omega), Bool.true_and, lsb_total hw, xorAll_bit, xorAll_bit]
  congr 3
  funext j
  rw [bitMask_bit hv hw, decide_eq_true hq, Bool.true_and]

theorem bitAt_eq {v : ℕ} (hw : 0 < w) (c : BitVec v) (bit : ℕ) :
    (bitAt c bit : BitVec w) = BitVec.ofNat w (c.getLsbD bit).toNat := by
  unfold bitAt
  rw [and_one_bit, BitVec.getLsbD_setWidth, BitVec.getLsbD_ushiftRight, decide_eq_true hw]
  simp

/-- the share of one bit that the random-bit method produces -/
def bitShare (c : Fin n → BitVec w) (r : Fin n → BitVec w) : Fin n → BitVec w := fun i =>
  if i = 0 then c i + (1 - c i * 2) * r i else (1 - c i * 2) * r i

theorem bitShare_total {v : ℕ} {a : BShr n w} {x : BitVec w} (ha : BRep a x) (hw : 0 < w) (hv : a.nb ≤ v)
    (r : ℕ → Fin n → BitVec w) {q : ℕ} (hq : q < a.nb) (hr : total (r q) = 0 ∨ total (r q) = 1) :
    total (bitShare (fun i => bitAt (openXor a v r i) q) (r q)) = BitVec.ofNat w (x.getLsbD q).toNat := by
  have hc : ∀ i, (bitAt (openXor a v r i) q : BitVec w)
      = BitVec.ofNat w (x.getLsbD q ^^ (total (r q)).getLsbD 0).toNat := by
    intro i; rw [bitAt_eq hw, openXor_bit ha hw hv r i hq]
  unfold bitShare
  simp only [hc]
  generalize hcc : BitVec.ofNat w (x.getLsbD q ^^ (total (r q)).getLsbD 0).toNat = c
  have h1 : total (fun i => if i = 0 then c + (1 - c * 2) * r q i else (1 - c * 2) * r q i)
      = (1 - c * 2) * total (r q) + c := by
    have := total_ite_add (0 : Fin n) (fun i => (1 - c * 2) * r q i) (fun _ => c)
    rw [total_mul_left] at this
    rw [← this]
    congr 1
    funext i
    split
    · rw [add_comm]
    · rfl
  rw [h1, ← hcc]
  have one0 : (1 : BitVec w).getLsbD 0 = true := by rw [one_bit]; simp [hw]
  have z0 : (0 : BitVec w).getLsbD 0 = false := BitVec.getLsbD_zero
  rcases hr with h | h <;> rw [h]
  · rw [z0, Bool.xor_false, mul_zero, zero_add]
  · rw [one0, mul_one]
    cases x.getLsbD q
    · show (1 - BitVec.ofNat w 1 * 2) + BitVec.ofNat w 1 = BitVec.ofNat w 0
      rw [show BitVec.ofNat w 1 = 1 from rfl, show BitVec.ofNat w 0 = 0 from rfl]; ring
    · show (1 - BitVec.ofNat w 0 * 2) + BitVec.ofNat w 0 = BitVec.ofNat w 1
      rw [show BitVec.ofNat w 1 = 1 from rfl, show BitVec.ofNat w 0 = 0 from rfl]; ring

theorem bits_sum (x : BitVec w) (k : ℕ) :
    ∑ q ∈ Finset.range k, BitVec.ofNat w (x.getLsbD q).toNat <<< q = BitVec.ofNat w (x.toNat % 2 ^ k) := by
  induction k with
  | zero => simp [Nat.mod_one]
  | succ k ih =>
    rw [Finset.sum_range_succ, ih, Nat.mod_pow_succ]
    rw [BitVec.ofNat_add]
    congr 1
    have hb : (x.getLsbD k).toNat = x.toNat / 2 ^ k % 2 := by
      unfold BitVec.getLsbD
      rw [Nat.toNat_testBit]
    rw [hb, shiftLeft_eq_mul, show ((2 : ℤ) ^ k) = ((2 ^ k : ℕ) : ℤ) by push_cast; rfl, BitVec.ofInt_natCast,
      ← BitVec.ofNat_mul, mul_comm]

theorem bits_sum_eq {x : BitVec w} {k : ℕ} (hx : x.toNat < 2 ^ k) :
    ∑ q ∈ Finset.range k, BitVec.ofNat w (x.getLsbD q).toNat <<< q = x := by
  rw [bits_sum, Nat.mod_eq_of_lt hx, BitVec.ofNat_toNat, BitVec.setWidth_eq]

theorem foldl_add_range {R : Type*} [AddCommMonoid R] (f : ℕ → R) (k : ℕ) :
    (List.range k).foldl (fun acc q => acc + f q) 0 = ∑ q ∈ Finset.range k, f q := by
  induction k with
  | zero => rfl
  | succ k ih => rw [List.range_succ, List.foldl_append, ih, Finset.sum_range_succ]; rfl

theorem backBits_ge {k v : ℕ} (h : backBits k = some v) : k ≤ v := by
  unfold backBits at h
  split at h <;> [skip; split at h <;> [skip; split at h <;> [skip; split at h <;> [skip; split at h]]]] <;>
    simp at h <;> omega

theorem backBits_some {k : ℕ} (h : k ≤ 128) : ∃ v, backBits k = some v := by
  unfold backBits
  split_ifs <;> exact ⟨_, rfl⟩

/-- B2A by random bits: the additive shares sum to the opened boolean value, for every declared bit count. -/
theorem c25_b2a_randbit (hE : EnvOk E Inv) (hw : 0 < w) (h128 : w ≤ 128) {a : BShr n w} {x : BitVec w} (ha : BRep a x) :
    Ok Inv (b2aRandbit E a) (fun s => total s = x) := by
  refine Ok.enforce (by simpa using ha.2.2) ?_
  by_cases h0 : a.nb = 0
  · rw [if_pos h0]
    refine Ok.pure ?_
    have h1 := ha.2.1
    rw [h0] at h1
    have : x = 0 := BitVec.eq_of_toNat_eq (by simpa using h1)
    rw [this]; unfold total; simp
  · rw [if_neg h0]
    obtain ⟨v, hv⟩ := backBits_some (k := a.nb) (by have := ha.2.2; omega)
    refine ok_opt hv (Ok.bind (hE.randBits a.nb) fun r hr => Ok.pure ?_)
    have e : (fun i : Fin n => (List.range a.nb).foldl (fun (acc : BitVec w) bit =>
        let c : BitVec w := bitAt (openXor a v r i) bit
        if i = 0 then acc + ((c + (1 - c * 2) * r bit i) <<< bit)
        else acc + (((1 - c * 2) * r bit i) <<< bit)) 0)
        = fun i => ∑ q ∈ Finset.range a.nb, bitShare (fun i => bitAt (openXor a v r i) q) (r q) i <<< q := by
      funext i
      rw [← foldl_add_range]
      congr 1
      funext acc q
      unfold bitShare
      by_cases h : i = 0
      · simp only [h, if_true]
      · simp only [h, if_false]
    refine Eq.trans (congrArg total e) ?_
    unfold total
    rw [Finset.sum_comm]
    refine Eq.trans (Finset.sum_congr rfl fun q hq => ?_) (bits_sum_eq ha.2.1)
    rw [Finset.mem_range] at hq
    simp only [shiftLeft_eq_mul]
    rw [← Finset.sum_mul]
    congr 1
    exact bitShare_total ha hw (backBits_ge hv) r hq (hr q hq)

/-- `B2A_Disassemble`: one additive sharing per declared bit, of that bit; together they determine the value. -/
theorem c25_b2a_disassemble (hE : EnvOk E Inv) (h128 : w ≤ 128) {a : BShr n w} {x : BitVec w}
    (ha : BRep a x) (h0 : 0 < a.nb) :
    Ok Inv (b2aDisassemble E a) (fun l => l.map total = (List.range a.nb).map (fun q => BitVec.ofNat w (x.getLsbD q).toNat)
      ∧ ∑ q ∈ Finset.range a.nb, BitVec.ofNat w (x.getLsbD q).toNat <<< q = x) := by
  refine Ok.enforce (by simpa using ⟨h0, ha.2.2⟩) ?_
  obtain ⟨v, hv⟩ := backBits_some (k := a.nb) (by have := ha.2.2; omega)
  refine ok_opt hv (Ok.bind (hE.randBits a.nb) fun r hr => Ok.pure ⟨?_, bits_sum_eq ha.2.1⟩)
  rw [List.map_map]
  refine List.map_congr_left fun q hq => ?_
  rw [List.mem_range] at hq
  exact bitShare_total ha (by have := ha.2.2; omega) (backBits_ge hv) r hq (hr q hq)

/-- B2A through the adder circuit. -/
theorem c25_b2a (hE : EnvOk E Inv) {M : ℕ} (hwM : w = 2 ^ M) (hw : 1 < w) (h128 : w ≤ 128) {a : BShr n w}
    {x : BitVec w} (ha : BRep a x) (hnb : a.nb = w) : Ok Inv (b2a E a) (fun s => total s = x) := by
  have S := c26_semi2k_gates hE hwM h128
  refine Ok.bind hE.priv fun r _ => Ok.bind (c25_a2b hE hwM hw h128 r) fun rb ⟨hrb, nrb⟩ => ?_
  refine Ok.bind (c15_add_bb S hw ha hrb (by show a.nb = rb.nb; rw [hnb, nrb])) fun s ⟨hs, _⟩ => Ok.pure ?_
  have e : (fun i : Fin n => if i = 0 then -(r i) + allReduce (· ^^^ ·) s.sh i else -(r i))
      = fun i => if i = 0 then -(r i) + (fun _ => x + total r) i else -(r i) := by
    funext i
    rw [allReduce_xor, hs.1]
  refine Eq.trans (congrArg total e) ?_
  rw [total_ite_add]
  have : total (fun i => -(r i)) = - total r := by unfold total; rw [Finset.sum_neg_distrib]
  rw [this]; ring

/-! ### the theorems on the demonstration session -/

theorem semi2kDemo_ok : EnvOk semi2kDemoEnv SysOk := sysEnv_ok _ _ _ _ _ _

/-- what the demonstration session holds after a conversion -/
theorem semi2kDemo_run {α : Type} {m : Spu.Model.Circ.M (Semi2kSys.Sys 2 ℕ) α} {P : α → Prop} (h : Ok SysOk m P) :
    ∃ a s, m semi2kDemoStart = some (a, s) ∧ SysOk s ∧ P a := h _ (start_ok _ _ _ _)

-- 200 + 99 = 43 modulo 256
example : ∃ c s, a2b semi2kDemoEnv ![200, 99] semi2kDemoStart = some (c, s) ∧ BRep c 43 ∧ c.nb = 8 := by
  obtain ⟨c, s, h, -, hc⟩ := semi2kDemo_run (c25_a2b semi2kDemo_ok (M := 3) rfl (by norm_num) (by norm_num) ![200, 99])
  exact ⟨c, s, h, by have e : total ![(200 : BitVec 8), 99] = 43 := by decide
                     rw [← e]; exact hc.1, hc.2⟩

-- 100 + 99 has its sign bit set
example : ∃ c s, msbA2B semi2kDemoEnv ![100, 99] semi2kDemoStart = some (c, s) ∧ BRep c 1 ∧ c.nb = 1 := by
  obtain ⟨c, s, h, -, hc⟩ := semi2kDemo_run (c25_msb_a2b semi2kDemo_ok (M := 3) (by norm_num) rfl (by norm_num) ![100, 99])
  exact ⟨c, s, h, by have e : BitVec.ofNat 8 (total ![(100 : BitVec 8), 99]).msb.toNat = 1 := by decide
                     rw [← e]; exact hc.1, hc.2⟩

example : ∃ c s, equalAA semi2kDemoEnv ![200, 99] ![3, 40] semi2kDemoStart = some (c, s) ∧ BRep c 1 := by
  obtain ⟨c, s, h, -, hc⟩ := semi2kDemo_run (c25_equal_aa semi2kDemo_ok (M := 3) rfl (by norm_num) ![200, 99] ![3, 40])
  exact ⟨c, s, h, by rw [if_pos (by decide)] at hc; exact hc⟩

example : ∃ c s, equalAP semi2kDemoEnv ![200, 99] 44 semi2kDemoStart = some (c, s) ∧ BRep c 0 := by
  obtain ⟨c, s, h, -, hc⟩ := semi2kDemo_run (c25_equal_ap semi2kDemo_ok (M := 3) rfl (by norm_num) ![200, 99] 44)
  exact ⟨c, s, h, by rw [if_neg (by decide)] at hc; exact hc⟩

/-- a boolean sharing of 21 with five declared bits, although the parties' words use all eight -/
def semi2kDemoB : BShr 2 8 := ⟨![0xF5, 0xE0], 5⟩

theorem semi2kDemoB_rep : BRep semi2kDemoB 21 := ⟨by decide, by decide, by decide⟩

example : ∃ r s, b2aRandbit semi2kDemoEnv semi2kDemoB semi2kDemoStart = some (r, s) ∧ total r = 21 := by
  obtain ⟨r, s, h, -, hr⟩ := semi2kDemo_run (c25_b2a_randbit semi2kDemo_ok (by norm_num) (by norm_num) semi2kDemoB_rep)
  exact ⟨r, s, h, hr⟩

example : ∃ l s, b2aDisassemble semi2kDemoEnv semi2kDemoB semi2kDemoStart = some (l, s) ∧ l.map total = [1, 0, 1, 0, 1] := by
  obtain ⟨l, s, h, -, hl⟩ := semi2kDemo_run (c25_b2a_disassemble semi2kDemo_ok (by norm_num) semi2kDemoB_rep (by decide))
  exact ⟨l, s, h, hl.1.trans (by decide)⟩

example : ∃ r s, b2a semi2kDemoEnv ⟨![0xF5, 0xE0], 8⟩ semi2kDemoStart = some (r, s) ∧ total r = 21 := by
  obtain ⟨r, s, h, -, hr⟩ := semi2kDemo_run (c25_b2a semi2kDemo_ok (M := 3) rfl (by norm_num) (by norm_num)
    (a := ⟨![0xF5, 0xE0], 8⟩) (x := 21) ⟨by decide, by decide, by decide⟩ rfl)
  exact ⟨r, s, h, hr⟩

theorem semi2kDemo_sound : Sound (gates semi2kDemoEnv) SysOk BRep := c26_semi2k_gates semi2kDemo_ok (M := 3) rfl (by norm_num)

-- C15 on shares: 21 + 13 with five declared bits needs six
example : ∃ c s, addBB (gates semi2kDemoEnv) semi2kDemoB ⟨![0x0F, 0x02], 5⟩ semi2kDemoStart = some (c, s) ∧ BRep c 34 ∧ c.nb = 6 := by
  obtain ⟨c, s, h, -, hc⟩ := semi2kDemo_run (c15_add_bb semi2kDemo_sound (by norm_num) semi2kDemoB_rep
    (b := ⟨![0x0F, 0x02], 5⟩) (y := 13) ⟨by decide, by decide, by decide⟩ rfl)
  exact ⟨c, s, h, hc.1, hc.2⟩

example : ∃ c s, ppaSklansky (gates semi2kDemoEnv) ⟨![0x0F, 0x02], 4⟩ ⟨![0x0F, 0x05], 4⟩ 4 semi2kDemoStart = some (c, s) ∧
    BRep c 23 ∧ c.nb = 5 := by
  obtain ⟨c, s, h, -, hc⟩ := semi2kDemo_run (c15_ppa_sklansky semi2kDemo_sound (M := 3) (t := 2) rfl (by norm_num) (by norm_num)
    (a := ⟨![0x0F, 0x02], 4⟩) (x := 13) (b := ⟨![0x0F, 0x05], 4⟩) (y := 10) ⟨by decide, by decide, by decide⟩
    ⟨by decide, by decide, by decide⟩ rfl rfl)
  exact ⟨c, s, h, hc.1, hc.2⟩

-- the carry out of the low four bits of 13 + 10
example : ∃ c s, carryA2B (gates semi2kDemoEnv) ⟨![0x0F, 0x02], 4⟩ ⟨![0x0F, 0x05], 4⟩ 4 semi2kDemoStart = some (c, s) ∧
    BRep c 1 ∧ c.nb = 1 := by
  obtain ⟨c, s, h, -, hc⟩ := semi2kDemo_run (c15_carry_a2b semi2kDemo_sound (M := 3) (j := 2) rfl (by norm_num)
    (a := ⟨![0x0F, 0x02], 4⟩) (x := 13) (b := ⟨![0x0F, 0x05], 4⟩) (y := 10) ⟨by decide, by decide, by decide⟩
    ⟨by decide, by decide, by decide⟩ rfl rfl)
  exact ⟨c, s, h, hc.1, hc.2⟩

-- the carry into the top bit of 100 + 99
example : ∃ c s, carryA2B (gates semi2kDemoEnv) ⟨![0x64, 0], 8⟩ ⟨![0x63, 0], 8⟩ 7 semi2kDemoStart = some (c, s) ∧
    BRep c 1 ∧ c.nb = 1 := by
  obtain ⟨c, s, h, -, hc⟩ := semi2kDemo_run (c15_carry_a2b_top semi2kDemo_sound (M := 3) (by norm_num) rfl (by norm_num)
    (a := ⟨![0x64, 0], 8⟩) (x := 100) (b := ⟨![0x63, 0], 8⟩) (y := 99) ⟨by decide, by decide, by decide⟩
    ⟨by decide, by decide, by decide⟩ rfl rfl)
  exact ⟨c, s, h, hc.1, hc.2⟩

/-- a boolean program: `(5 << 2) ^ 5 = 17`, masked, reversed and shifted -/
def semi2kDemoProg : List (BOp 8) :=
  [.p2b 5 3, .lshift 0 2, .xorBB 0 1, .andBP 2 0x19 5, .andBB 2 3, .rand, .xorBB 4 5, .bitrev 4 0 5, .cast 0 4,
   .arshift 7 1, .rshift 4 1]

-- the program runs, and every register is a sharing with a sound declared bit count
example : ∃ regs s, runB semi2kDemoEnv semi2kDemoProg semi2kDemoStart = some (regs, s) ∧ regs.map BShr.nb = [3, 5, 5, 5, 5, 1, 5, 5, 5, 8, 4] ∧
    ∃ vals, BTrace semi2kDemoProg vals ∧ List.Forall₂ (fun a p => BRep a p.1 ∧ a.nb = p.2) regs vals := by
  have h : (runB semi2kDemoEnv semi2kDemoProg semi2kDemoStart).map (fun p => p.1.map BShr.nb) = some [3, 5, 5, 5, 5, 1, 5, 5, 5, 8, 4] := by
    decide +kernel
  obtain ⟨⟨regs, s⟩, hr, hn⟩ := Option.map_eq_some_iff.1 h
  refine ⟨regs, s, hr, hn, (c26_programs semi2kDemo_ok (M := 3) rfl (by norm_num) semi2kDemoProg ?_ (start_ok _ _ _ _) hr).2⟩
  intro op hop
  simp only [semi2kDemoProg, List.mem_cons, List.not_mem_nil, or_false] at hop
  rcases hop with rfl | rfl | rfl | rfl | rfl | rfl | rfl | rfl | rfl | rfl | rfl <;> simp [BOp.Valid]

end

end Spu.Props

import Verif.Props.LowMC
import Verif.Props.Semi2kGates

set_option autoImplicit false

/-!
# C82: LowMC on xor-shares
-/

namespace Spu.Props
open Spu.Model Spu.Model.LowMC Spu.Spec Spu.Spec.LowMC Spu.Lemmas Spu.Lemmas.LowMC Spu.Model.Semi2k Spu.Model.Semi2kConv

theorem bz_xorAll {w n : ℕ} (s : Fin n → BitVec w) (i : ℕ) : bz ((xorAll s).getLsbD i) = ∑ p, bz ((s p).getLsbD i) := by
  have h : ∀ l : List (BitVec w), bz ((l.foldr (· ^^^ ·) 0).getLsbD i) = (l.map fun x => bz (x.getLsbD i)).sum := by
    intro l
    induction l with
    | nil => simp [bz]
    | cons a l ih => rw [List.foldr_cons, BitVec.getLsbD_xor, bz_xor, ih, List.map_cons, List.sum_cons]
  unfold xorAll
  rw [h, List.map_ofFn, List.sum_ofFn]
  rfl

theorem xorAll_bit2 {w v n : ℕ} {f : Fin n → BitVec w} {g : Fin n → BitVec v} {k m : ℕ}
    (h : ∀ p, (f p).getLsbD k = (g p).getLsbD m) : (xorAll f).getLsbD k = (xorAll g).getLsbD m := by
  apply bz_inj
  rw [bz_xorAll, bz_xorAll]
  exact Finset.sum_congr rfl fun p _ => by rw [h p]

theorem slicePos_ok {boxes : ℕ} {shape : Shape} (hs : shape ≠ []) {i j : ℕ} (hj : j < numel shape) :
    slicePos boxes shape i j = some (j + i * numel shape) := by
  rw [numel_eq_size] at hj ⊢
  cases shape with
  | nil => exact absurd rfl hs
  | cons n0 rest =>
    obtain ⟨idx, h1, h2, h3⟩ := unflattenIndex_spec hj
    cases h2 with
    | cons hh ht =>
      rename_i h tl
      unfold slicePos
      simp only [h1, Option.bind_eq_bind, Option.bind_some, List.headD_cons, List.tail_cons]
      rw [flattenIndex_eq (by simp [Spu.InB.length ht])]
      simp only [pos, size] at h3 ⊢
      rw [← h3]
      congr 1; ring

section
variable {n w : ℕ} [NeZero n]

theorem orBits {f : ℕ → BitVec w} {g : ℕ → Option ℕ} {t : ℕ → ℕ} {F : ℕ → ℕ → BitVec w} (hF : ∀ i, F i (t i) = f i) : ∀ k ≤ w,
    (∀ i < k, g i = some (t i)) → ∃ R : BitVec w, (List.range k).foldlM (m := Option) (fun (r : BitVec w) i => do
      let t ← g i
      return r ||| ((F i t &&& 1#w) <<< i)) 0 = some R ∧ ∀ i, R.getLsbD i = (decide (i < k) && (f i).getLsbD 0) := by
  intro k
  induction k with
  | zero => intro _ _; exact ⟨0, rfl, fun i => by simp⟩
  | succ k ih =>
    intro hk hg
    obtain ⟨R, h1, h2⟩ := ih (by omega) fun i hi => hg i (by omega)
    refine ⟨R ||| ((f k &&& 1#w) <<< k), ?_, fun i => ?_⟩
    · rw [List.range_succ, List.foldlM_append, h1]
      simp only [Option.bind_eq_bind, Option.bind_some, List.foldlM_cons, List.foldlM_nil, hg k (by omega), hF]
      rfl
    · rw [BitVec.getLsbD_or, h2, BitVec.getLsbD_shiftLeft, BitVec.getLsbD_and, BitVec.getLsbD_one]
      by_cases e1 : i < k
      · simp [e1, show i < k + 1 by omega]
      · by_cases e2 : i = k
        · subst e2
          simp [show i < w by omega, show 0 < w by omega]
        · simp [e1, show ¬ i < k + 1 by omega, show i - k ≠ 0 by omega]

theorem seven_bit {w i : ℕ} (hw : 3 ≤ w) : (7#w).getLsbD i = decide (i < 3) := by
  rw [BitVec.getLsbD_ofNat]
  by_cases h : i < 3
  · have : i < w := by omega
    interval_cases i <;> simp [this] <;> decide
  · simp only [h, decide_false]
    rw [testBit_small (by norm_num) (by omega), Bool.and_false]

theorem three_bit {w i : ℕ} (hw : 3 ≤ w) : (3#w).getLsbD i = decide (i < 2) := by
  rw [BitVec.getLsbD_ofNat]
  by_cases h : i < 2
  · have : i < w := by omega
    interval_cases i <;> simp [this] <;> decide
  · simp only [h, decide_false]
    have : (3 : ℕ).testBit i = false := Nat.testBit_lt_two_pow (lt_of_lt_of_le (by norm_num : 3 < 2 ^ 2)
      (Nat.pow_le_pow_right (by omega) (by omega)))
    rw [this, Bool.and_false]

theorem abcArr_bit (hw : 3 ≤ w) {N j i k : ℕ} (hj : j < N) (s : ℕ → BitVec w) :
    (abcArr N s (j + i * N)).getLsbD k = (decide (k < 3) && (s j).getLsbD (3 * i + k)) := by
  unfold abcArr
  rw [Nat.add_mul_mod_self_right, Nat.mod_eq_of_lt hj, Nat.add_mul_div_right _ _ (by omega), Nat.div_eq_of_lt hj, Nat.zero_add,
    BitVec.getLsbD_and, BitVec.getLsbD_ushiftRight, seven_bit hw, Bool.and_comm]

theorem bcaArr_bit (hw : 3 ≤ w) {N j i k : ℕ} (hj : j < N) (s : ℕ → BitVec w) :
    (bcaArr N s (j + i * N)).getLsbD k = (decide (k < 3) && (s j).getLsbD (3 * i + (k + 2) % 3)) := by
  unfold bcaArr
  rw [Nat.add_mul_mod_self_right, Nat.mod_eq_of_lt hj, Nat.add_mul_div_right _ _ (by omega), Nat.div_eq_of_lt hj, Nat.zero_add,
    BitVec.getLsbD_or, BitVec.getLsbD_shiftLeft, BitVec.getLsbD_and, BitVec.getLsbD_and, BitVec.getLsbD_ushiftRight,
    BitVec.getLsbD_ushiftRight, three_bit hw, BitVec.getLsbD_one]
  by_cases h : k < 3
  · have h1 : k < w := by omega
    have h2 : 0 < w := by omega
    interval_cases k <;> simp [h1, h2]
  · have h1 : ¬ k - 1 < 2 := by omega
    have h2 : k ≠ 0 := by omega
    simp [h, h1, h2]

theorem packedBit_bit (hw : 3 ≤ w) {N j i o : ℕ} (hj : j < N) (s : ℕ → BitVec w) :
    (packedBit N s o (j + i * N)).getLsbD 0 = (s j).getLsbD (3 * i + o) := by
  unfold packedBit
  rw [Nat.add_mul_mod_self_right, Nat.mod_eq_of_lt hj, Nat.add_mul_div_right _ _ (by omega), Nat.div_eq_of_lt hj, Nat.zero_add,
    BitVec.getLsbD_and, BitVec.getLsbD_ushiftRight, BitVec.getLsbD_one]
  simp [show 0 < w by omega]

theorem extractBit_bit (hw : 3 ≤ w) (x : ℕ → BitVec w) (k t : ℕ) : (extractBit x k t).getLsbD 0 = (x t).getLsbD k := by
  unfold extractBit
  rw [BitVec.getLsbD_and, BitVec.getLsbD_ushiftRight, BitVec.getLsbD_one]
  simp [show 0 < w by omega]

/-- the dealer's triples are correct -/
def TriplesOk (T : Triples n) : Prop := ∀ t, xorAll (T t).2.2 = xorAll (T t).1 &&& xorAll (T t).2.1

/-- bit `i` of the new words, at lane `t` -/
def newBit (N : ℕ) (T : Triples n) (x : BArr n w) (i : ℕ) : Fin n → ℕ → BitVec w := if i % 3 = 0 then fun p t =>
      (extractBit (fun t => xorBB (fun q => abcArr N (x.sh q) t) (fun q => bcaArr N (x.sh q) t) p) 1 t ^^^ packedBit N (x.sh p) 2 t) ^^^
        extractBit (fun t => andBB (fun q => abcArr N (x.sh q) t) (fun q => bcaArr N (x.sh q) t) (T t).1 (T t).2.1 (T t).2.2 p) 2 t
    else if i % 3 = 1 then fun p t =>
      extractBit (fun t => xorBB (fun q => abcArr N (x.sh q) t) (fun q => bcaArr N (x.sh q) t) p) 2 t ^^^
        extractBit (fun t => andBB (fun q => abcArr N (x.sh q) t) (fun q => bcaArr N (x.sh q) t) (T t).1 (T t).2.1 (T t).2.2 p) 0 t
    else fun p t => packedBit N (x.sh p) 2 t ^^^
        extractBit (fun t => andBB (fun q => abcArr N (x.sh q) t) (fun q => bcaArr N (x.sh q) t) (T t).1 (T t).2.1 (T t).2.2 p) 1 t

/-- the new word of party `p` at position `j` -/
def newWord (boxes : ℕ) (shape : Shape) (T : Triples n) (x : BArr n w) (p : Fin n) (j : ℕ) : Option (BitVec w) := do
  let low ← (List.range (3 * boxes)).foldlM (m := Option) (fun (r : BitVec w) i => do
    let t ← slicePos boxes shape (i / 3) j
    return r ||| ((newBit (numel shape) T x i p t &&& 1#w) <<< i)) 0
  return low ||| ((x.sh p j >>> (3 * boxes)) <<< (3 * boxes))

theorem sboxShares_eq (boxes : ℕ) (shape : Shape) (T : Triples n) (x : BArr n w) : sboxShares boxes shape T x =
    if shape = [] then none else if ∀ p : Fin n, ∀ j < numel shape, (newWord boxes shape T x p j).isSome then
      some ⟨fun p j => (newWord boxes shape T x p j).getD 0, x.nb⟩ else none := rfl

/-- The kernel's S-box layer opens to the S-box layer of the shared words, for arrays with at least one axis. -/
theorem sboxShares_ok {boxes : ℕ} {shape : Shape} (hs : shape ≠ []) (hb : 3 * boxes ≤ w) (hw : 3 ≤ w) {T : Triples n} (hT : TriplesOk T)
    (x : BArr n w) : ∃ y, sboxShares boxes shape T x = some y ∧ y.nb = x.nb ∧ ∀ j < numel shape,
      xorAll (fun p => y.sh p j) = substitution boxes kSBox (xorAll fun p => x.sh p j) := by
  obtain ⟨N, hN⟩ : ∃ N, N = numel shape := ⟨_, rfl⟩
  rw [sboxShares_eq, if_neg hs]
  -- the AND of a lane
  have hand : ∀ j < N, ∀ i k, k < 3 → (xorAll fun p => andBB (fun q => abcArr N (x.sh q) (j + i * N)) (fun q => bcaArr N (x.sh q) (j + i * N))
      (T (j + i * N)).1 (T (j + i * N)).2.1 (T (j + i * N)).2.2 p).getLsbD k =
      ((xorAll fun p => x.sh p j).getLsbD (3 * i + k) && (xorAll fun p => x.sh p j).getLsbD (3 * i + (k + 2) % 3)) := by
    intro j hj i k hk
    have b1 : ∀ k, (xorAll fun q => abcArr N (x.sh q) (j + i * N)).getLsbD k =
        (decide (k < 3) && (xorAll fun p => x.sh p j).getLsbD (3 * i + k)) := by
      intro k
      by_cases h : k < 3
      · simp only [h, decide_true, Bool.true_and]
        exact xorAll_bit2 fun p => by rw [abcArr_bit hw hj]; simp [h]
      · simp only [h, decide_false, Bool.false_and]
        apply bz_inj
        rw [bz_xorAll]
        exact Finset.sum_eq_zero fun p _ => by rw [abcArr_bit hw hj]; simp [h, bz]
    have b2 : ∀ k, (xorAll fun q => bcaArr N (x.sh q) (j + i * N)).getLsbD k =
        (decide (k < 3) && (xorAll fun p => x.sh p j).getLsbD (3 * i + (k + 2) % 3)) := by
      intro k
      by_cases h : k < 3
      · simp only [h, decide_true, Bool.true_and]
        exact xorAll_bit2 fun p => by rw [bcaArr_bit hw hj]; simp [h]
      · simp only [h, decide_false, Bool.false_and]
        apply bz_inj
        rw [bz_xorAll]
        exact Finset.sum_eq_zero fun p _ => by rw [bcaArr_bit hw hj]; simp [h, bz]
    obtain ⟨v, hv, hh⟩ := c20_and_declared (nx := 3) (ny := 3) (fun q => abcArr N (x.sh q) (j + i * N))
      (fun q => bcaArr N (x.sh q) (j + i * N)) (lt_of_bits fun k hk => by rw [b1]; simp [show ¬ k < 3 by omega])
      (lt_of_bits fun k hk => by rw [b2]; simp [show ¬ k < 3 by omega]) (by norm_num)
    have hv8 : v = 8 := by
      have : backBits (min 3 3) = some 8 := rfl
      rw [this, Option.some_inj] at hv
      exact hv.symm
    subst hv8
    have := (hh _ _ _ (hT (j + i * N))).1
    have e : (xorAll fun p => andBB (fun q => abcArr N (x.sh q) (j + i * N)) (fun q => bcaArr N (x.sh q) (j + i * N))
      (T (j + i * N)).1 (T (j + i * N)).2.1 (T (j + i * N)).2.2 p) = _ := this
    rw [e, BitVec.getLsbD_and, b1, b2]
    simp [hk]
  have hword : ∀ (p : Fin n) (j : ℕ), j < N → ∃ W : BitVec w, newWord boxes shape T x p j = some W ∧
      ∀ t < w, W.getLsbD t = if t < 3 * boxes then (newBit N T x t p (j + t / 3 * N)).getLsbD 0 else (x.sh p j).getLsbD t := by
    intro p j hj
    obtain ⟨R, h1, h2⟩ := orBits (w := w) (f := fun i => newBit N T x i p (j + i / 3 * N)) (g := fun i => slicePos boxes shape (i / 3) j)
      (t := fun i => j + i / 3 * N) (F := fun i t => newBit N T x i p t) (fun i => rfl) (3 * boxes) hb
      (fun i _ => by rw [hN] at hj ⊢; exact slicePos_ok hs hj)
    refine ⟨R ||| ((x.sh p j >>> (3 * boxes)) <<< (3 * boxes)), ?_, fun t ht => ?_⟩
    · unfold newWord; rw [← hN, h1]; rfl
    · rw [BitVec.getLsbD_or, h2, BitVec.getLsbD_shiftLeft, BitVec.getLsbD_ushiftRight]
      by_cases e : t < 3 * boxes
      · simp [e]
      · simp [e, ht, show 3 * boxes + (t - 3 * boxes) = t by omega]
  choose! W hW1 hW2 using hword
  rw [if_pos fun p j hj => by rw [hW1 p j (by rw [hN]; exact hj)]; rfl]
  refine ⟨_, rfl, rfl, fun j hj => ?_⟩
  rw [← hN] at hj
  have e : (fun p => (newWord boxes shape T x p j).getD 0) = fun p => W p j := by
    funext p
    rw [hW1 p j hj]; rfl
  show xorAll (fun p => _) = _
  rw [e]
  refine BitVec.eq_of_getLsbD_eq fun t ht => ?_
  rw [subst_bit kSBox_lt boxes _ ht]
  split
  · rename_i htb
    have ha : ∀ p, (packedBit N (x.sh p) 2 (j + t / 3 * N)).getLsbD 0 = (x.sh p j).getLsbD (3 * (t / 3) + 2) := fun p => packedBit_bit hw hj _
    have hx : ∀ p k, k < 3 → (extractBit (fun t => xorBB (fun q => abcArr N (x.sh q) t) (fun q => bcaArr N (x.sh q) t) p) k (j + t / 3 * N)).getLsbD 0 =
        ((x.sh p j).getLsbD (3 * (t / 3) + k) ^^ (x.sh p j).getLsbD (3 * (t / 3) + (k + 2) % 3)) := by
      intro p k hk
      rw [extractBit_bit hw]
      unfold xorBB
      rw [BitVec.getLsbD_xor, abcArr_bit hw hj, bcaArr_bit hw hj]
      simp [hk]
    have hs1 : ∀ k, ∑ p, bz ((x.sh p j).getLsbD k) = bz ((xorAll fun p => x.sh p j).getLsbD k) := fun k => (bz_xorAll _ _).symm
    have hs2 : ∀ k, k < 3 → ∑ p, bz ((extractBit (fun t => andBB (fun q => abcArr N (x.sh q) t) (fun q => bcaArr N (x.sh q) t) (T t).1 (T t).2.1
        (T t).2.2 p) k (j + t / 3 * N)).getLsbD 0) = bz ((xorAll fun p => x.sh p j).getLsbD (3 * (t / 3) + k)) *
          bz ((xorAll fun p => x.sh p j).getLsbD (3 * (t / 3) + (k + 2) % 3)) := by
      intro k hk
      rw [← bz_and, ← hand j hj (t / 3) k hk, bz_xorAll]
      exact Finset.sum_congr rfl fun p _ => by rw [extractBit_bit hw]
    apply bz_inj
    rw [bz_xorAll]
    rw [Finset.sum_congr rfl fun p _ => by rw [hW2 p j hj t ht, if_pos htb], box_toNat hw]
    obtain ⟨t2, t1, t0⟩ := sbox_table ((xorAll fun p => x.sh p j).getLsbD (3 * (t / 3) + 2)) ((xorAll fun p => x.sh p j).getLsbD (3 * (t / 3) + 1))
      ((xorAll fun p => x.sh p j).getLsbD (3 * (t / 3)))
    have h3 : t % 3 = 0 ∨ t % 3 = 1 ∨ t % 3 = 2 := by omega
    rcases h3 with h | h | h
    · rw [h, t0]
      unfold newBit
      simp only [h, if_true, BitVec.getLsbD_xor, bz_xor, Finset.sum_add_distrib, ha, hx _ 1 (by omega), hs1, hs2 2 (by omega)]
      ring_nf
    · rw [h, t1]
      unfold newBit
      simp only [h, if_true, BitVec.getLsbD_xor, bz_xor, Finset.sum_add_distrib, ha, hx _ 2 (by omega), hs1, hs2 0 (by omega),
        one_ne_zero, if_false]
      ring_nf
    · rw [h, t2]
      unfold newBit
      simp only [h, if_true, BitVec.getLsbD_xor, bz_xor, Finset.sum_add_distrib, ha, hx _ 2 (by omega), hs1, hs2 1 (by omega),
        if_false, show ¬ (2 = 0) by omega, show ¬ (2 = 1) by omega]
      ring_nf
  · rename_i htb
    exact xorAll_bit2 fun p => by rw [hW2 p j hj t ht, if_neg htb]

/-! ### The whole encryption -/

theorem dotGf2_xlin {s k e : ℕ} (hs : s = 2 ^ e) (m : Rows s) : XLin (dotGf2 k m) where
  zero := gfBits_inj (by rw [dotGf2_bits hs, gfBits_zero, gfBits_zero, Matrix.mulVec_zero])
  add x y := gfBits_inj (by rw [gfBits_xor, dotGf2_bits hs, dotGf2_bits hs, dotGf2_bits hs, gfBits_xor, Matrix.mulVec_add])

theorem xorAll_xorBP (s : Fin n → BitVec w) (c : BitVec w) : xorAll (xorBP s c) = xorAll s ^^^ c := by
  have : xorBP s c = fun i => s i ^^^ (if i = 0 then c else 0) := by
    funext i
    unfold xorBP
    split <;> simp
  rw [this, xorAll_xor]
  congr 1
  refine BitVec.eq_of_getLsbD_eq fun t _ => bz_inj ?_
  rw [bz_xorAll, Finset.sum_eq_single (0 : Fin n)]
  · simp
  · intro b _ hb; simp [hb, bz]
  · intro h; exact absurd (Finset.mem_univ _) h

/-- declared bit counts after `k` rounds, at party `p` -/
def declaredBits (c : Cipher w) (nb : ℕ) (k : ℕ → BitVec w) : ℕ → ℕ
  | 0 => max nb (wordWidth (k 0))
  | r + 1 => max (max nb (wordWidth (c.const.getD r 0))) (wordWidth (k (r + 1)))

theorem encryptShares_ok {c : Cipher w} (hc : CipherOk c) (hw : 3 ≤ w) {shape : Shape} (hs : shape ≠ []) {T : ℕ → Triples n}
    (hT : ∀ r, TriplesOk (T r)) (x : BArr n w) (key : Fin n → BitVec 128) {ks : List (BitVec w)}
    (hks : roundKeys w c.keyMats (xorAll key) c.rounds = some ks) :
    ∃ out, encryptShares c shape T x key = some out ∧
      (∀ j < numel shape, xorAll (fun p => out.sh p j) = encState c ks (xorAll fun p => x.sh p j) c.rounds) ∧
      ∀ p, out.nb p = declaredBits c (x.nb p) (fun r => dotGf2 w (c.keyMats.getD r fun _ => 0) (key p)) c.rounds := by
  obtain ⟨e, he⟩ := hc.pow
  have hk1 : ∀ k : BitVec 128, roundKeys w c.keyMats k c.rounds = some (c.keyMats.map fun m => dotGf2 w m k) := fun k => if_pos hc.keyMats
  rw [hk1, Option.some_inj] at hks
  have hget : ∀ (k : BitVec 128) r, r ≤ c.rounds → (c.keyMats.map fun m => dotGf2 w m k).getD r 0 =
      dotGf2 w (c.keyMats.getD r fun _ => 0) k := by
    intro k r hr
    have hl : r < c.keyMats.length := by rw [hc.keyMats]; omega
    simp [List.getD, hl]
  have hkey : ∀ r ≤ c.rounds, xorAll (fun p => dotGf2 w (c.keyMats.getD r fun _ => 0) (key p)) = ks.getD r 0 := by
    intro r hr
    rw [xorAll_map (dotGf2_xlin (e := 7) rfl _), ← hks, hget _ r hr]
  unfold encryptShares
  have hsome : ∀ p : Fin n, (roundKeys w c.keyMats (key p) c.rounds).isSome = true := fun p => by rw [hk1]; rfl
  rw [if_pos hsome]
  simp only [Option.bind_eq_bind, Option.bind_some, hk1, Option.getD_some, List.length_map, hc.keyMats]
  rw [if_pos (fun _ => by omega : ∀ _ : Fin n, 0 < c.rounds + 1), Option.bind_some, if_neg (by have := hc.boxes; omega : ¬ w < 3 * c.boxes)]
  have main : ∀ k ≤ c.rounds, ∃ out : BArr n w, (List.range k).foldlM (m := Option) (fun y r =>
      (sboxShares c.boxes shape (T r) y).bind fun y => (c.lin[r]?).bind fun l => (c.const[r]?).bind fun rc =>
        (if ∀ _ : Fin n, r + 1 < c.rounds + 1 then some (fun p => (c.keyMats.map fun m => dotGf2 w m (key p)).getD (r + 1) 0) else none).bind fun k =>
          (pure ⟨fun p j => xorBB (fun q => xorBP (fun q => dotGf2 w l (y.sh q j)) rc q) k p,
            fun p => max (max (x.nb p) (wordWidth rc)) (wordWidth (k p))⟩ : Option (BArr n w)))
      (⟨fun p j => xorBB (fun q => x.sh q j) (fun p => (c.keyMats.map fun m => dotGf2 w m (key p)).getD 0 0) p,
        fun p => max (x.nb p) (wordWidth ((c.keyMats.map fun m => dotGf2 w m (key p)).getD 0 0))⟩ : BArr n w) = some out ∧
      (∀ j < numel shape, xorAll (fun p => out.sh p j) = encState c ks (xorAll fun p => x.sh p j) k) ∧
      ∀ p, out.nb p = declaredBits c (x.nb p) (fun r => dotGf2 w (c.keyMats.getD r fun _ => 0) (key p)) k := by
    intro k
    induction k with
    | zero =>
      intro _
      refine ⟨_, rfl, fun j _ => ?_, fun p => ?_⟩
      · show xorAll (fun p => x.sh p j ^^^ _) = _
        rw [xorAll_xor, encState, ← hkey 0 (Nat.zero_le _)]
        simp only [hget _ 0 (Nat.zero_le _)]
      · show max _ _ = max _ _
        rw [hget _ 0 (Nat.zero_le _)]
    | succ k ih =>
      intro hk
      obtain ⟨y, h1, h2, -⟩ := ih (by omega)
      obtain ⟨z, g1, -, g3⟩ := sboxShares_ok hs hc.boxes hw (hT k) y
      rw [List.range_succ, List.foldlM_append, h1]
      simp only [Option.bind_eq_bind, Option.bind_some, List.foldlM_cons, List.foldlM_nil, g1]
      rw [getElem?_of_lt (fun _ => 0) (by rw [hc.lin]; omega : k < c.lin.length),
        getElem?_of_lt 0 (by rw [hc.const]; omega : k < c.const.length), if_pos (fun _ => by omega : ∀ _ : Fin n, k + 1 < c.rounds + 1)]
      refine ⟨_, rfl, fun j hj => ?_, fun p => ?_⟩
      · show xorAll (fun p => xorBP _ _ p ^^^ _) = _
        rw [xorAll_xor]
        have : (xorAll fun p => xorBP (fun q => dotGf2 w (c.lin.getD k fun _ => 0) (z.sh q j)) (c.const.getD k 0) p) = _ := xorAll_xorBP _ _
        rw [this, xorAll_map (dotGf2_xlin he _), g3 j hj, h2 j hj, encState, encRound, ← hkey (k + 1) hk]
        simp only [hget _ (k + 1) hk]
      · show max _ _ = max _ _
        dsimp only
        rw [hget _ (k + 1) hk]
  exact main c.rounds (le_refl _)

/-- Evaluating the cipher on xor-shares of the words and of the key opens to the encryption of the words under the key, at
every position of an array with at least one axis. -/
theorem c82_shares {c : Cipher w} (hc : CipherOk c) (hw : 3 ≤ w) (hk : c.keys = none) {shape : Shape} (hs : shape ≠ []) {T : ℕ → Triples n}
    (hT : ∀ r, TriplesOk (T r)) (x : BArr n w) (key : Fin n → BitVec 128) :
    ∃ c' out, setKey c (xorAll key) = some c' ∧ encryptShares c shape T x key = some out ∧
      ∀ j < numel shape, encrypt c' (xorAll fun p => x.sh p j) = some (xorAll fun p => out.sh p j) := by
  obtain ⟨ks, h1, h2, -⟩ := roundKeys_ok hc (xorAll key)
  obtain ⟨out, o1, o2, -⟩ := encryptShares_ok hc hw hs hT x key h1
  refine ⟨{ c with keys := some ks }, out, ?_, o1, fun j hj => ?_⟩
  · unfold setKey; rw [hk]; dsimp only; rw [h1]; rfl
  · rw [encrypt_state hc h2, o2 j hj]

/-- The declared bit count of a party's result: that of the input, the width of the last constant, and the width of the party's own
share of the last round key.  Hence it is at most the width of the words and, if the input declares all bits, equal to it. -/
theorem c82_bitcount {c : Cipher w} (hc : CipherOk c) (hw : 3 ≤ w) (hr : 0 < c.rounds) {shape : Shape} (hs : shape ≠ [])
    {T : ℕ → Triples n} (hT : ∀ r, TriplesOk (T r)) (x : BArr n w) (key : Fin n → BitVec 128) :
    ∃ out, encryptShares c shape T x key = some out ∧ (∀ p, out.nb p =
      max (max (x.nb p) (wordWidth (c.const.getD (c.rounds - 1) 0))) (wordWidth (dotGf2 w (c.keyMats.getD c.rounds fun _ => 0) (key p)))) ∧
      ∀ p, x.nb p = w → out.nb p = w := by
  obtain ⟨ks, h1, h2, -⟩ := roundKeys_ok hc (xorAll key)
  obtain ⟨out, o1, -, o3⟩ := encryptShares_ok hc hw hs hT x key h1
  obtain ⟨r, hr'⟩ : ∃ r, c.rounds = r + 1 := ⟨c.rounds - 1, by omega⟩
  have o4 : ∀ p, out.nb p =
      max (max (x.nb p) (wordWidth (c.const.getD (c.rounds - 1) 0))) (wordWidth (dotGf2 w (c.keyMats.getD c.rounds fun _ => 0) (key p))) := by
    intro p
    rw [o3 p, hr']
    rfl
  refine ⟨out, o1, o4, fun p hp => ?_⟩
  have a1 := wordWidth_le (c.const.getD (c.rounds - 1) 0)
  have a2 := wordWidth_le (dotGf2 w (c.keyMats.getD c.rounds fun _ => 0) (key p))
  rw [o4 p, hp]; omega

/-- On arrays without an axis the kernel reads the first extent of an empty shape. -/
theorem c82_scalar {c : Cipher w} (hr : 0 < c.rounds) (T : ℕ → Triples n) (x : BArr n w) (key : Fin n → BitVec 128) :
    encryptShares c [] T x key = none := by
  unfold encryptShares
  obtain ⟨r, hr'⟩ : ∃ r, c.rounds = r + 1 := ⟨c.rounds - 1, by omega⟩
  have hfold : ∀ (f : BArr n w → ℕ → Option (BArr n w)) y, (∀ y r, f y r = none) → (List.range (r + 1)).foldlM f y = none := by
    intro f y hf
    rw [List.range_succ_eq_map, List.foldlM_cons, hf]
    rfl
  have hs : ∀ (T : Triples n) (y : BArr n w), sboxShares c.boxes [] T y = none := fun T y => by rw [sboxShares_eq, if_pos rfl]
  cases hh : (if ∀ p : Fin n, (roundKeys w c.keyMats (key p) c.rounds).isSome then
    some (fun p => (roundKeys w c.keyMats (key p) c.rounds).getD []) else none : Option (Fin n → List (BitVec w))) with
  | none => rfl
  | some kt =>
    simp only [Option.bind_eq_bind, Option.bind_some]
    by_cases h0 : ∀ p, 0 < (kt p).length
    · rw [if_pos h0, Option.bind_some]
      split
      · rfl
      · rw [hr']
        refine hfold _ _ fun y r => ?_
        rw [hs]; rfl
    · rw [if_neg h0]; rfl

/-- The data complexity handed to the cipher is the smallest of 20, 30 and 40 for which `2 ^ d` is at least the number of words; for
more than `2 ^ 40` words there is none. -/
theorem c82_complexity (m : ℕ) (d : ℤ) : dataComplexity m = some d ↔
    (d = 20 ∧ m ≤ 2 ^ 20) ∨ (d = 30 ∧ 2 ^ 20 < m ∧ m ≤ 2 ^ 30) ∨ (d = 40 ∧ 2 ^ 30 < m ∧ m ≤ 2 ^ 40) := by
  have hlog : ∀ b, log2Ceil m ≤ b ↔ m ≤ 2 ^ b := by
    intro b
    unfold log2Ceil
    have := Nat.two_pow_pos b
    split
    · constructor <;> intro _ <;> omega
    · rw [Nat.size_le]; omega
  have l1 : (2 : ℕ) ^ 20 ≤ 2 ^ 30 := by norm_num
  have l2 : (2 : ℕ) ^ 30 ≤ 2 ^ 40 := by norm_num
  unfold dataComplexity
  dsimp only
  simp only [hlog]
  generalize (2 : ℕ) ^ 20 = A at *
  generalize (2 : ℕ) ^ 30 = B at *
  generalize (2 : ℕ) ^ 40 = C at *
  split_ifs <;> simp only [Option.some_inj, reduceCtorEq, false_iff] <;> omega

/-- The kernel: whenever it has a result, that opens to the encryption, under the key the parties share, by the cipher they build. -/
theorem c82_kernel {gen : Gen} {shape : Shape} {T : ℕ → Triples n} (hT : ∀ r, TriplesOk (T r)) {x : BArr n w} {key : Fin n → BitVec 128}
    {out : BArr n w} (h : lowMcB gen shape T x key = some out) :
    ∃ d c c', dataComplexity (numel shape) = some d ∧ mkCipher gen 1 w d false = some c ∧ setKey c (xorAll key) = some c' ∧
      ∀ j < numel shape, encrypt c' (xorAll fun p => x.sh p j) = some (xorAll fun p => out.sh p j) := by
  unfold lowMcB at h
  simp only [Option.bind_eq_bind, Option.bind_eq_some_iff] at h
  obtain ⟨d, h1, c, h2, h3⟩ := h
  obtain ⟨hc, hk, hr, hp, -, -⟩ := c82_construct h2
  have hs : shape ≠ [] := by
    rintro rfl
    rw [c82_scalar hr] at h3
    exact absurd h3 (by simp)
  have hw : 3 ≤ w := by
    unfold params at hp
    split_ifs at hp <;> omega
  obtain ⟨c', out', g1, g2, g3⟩ := c82_shares hc hw hk hs hT x key
  rw [g2, Option.some_inj] at h3
  subst h3
  exact ⟨d, c, c', h1, h2, g1, g3⟩

theorem stateMapM_some {α β : Type} {f : α → StateT ℕ Option β} (hf : ∀ a st, ∃ r, (f a).run st = some r) :
    ∀ (l : List α) (st : ℕ), ∃ r, (l.mapM f).run st = some r := by
  intro l
  induction l with
  | nil => intro st; exact ⟨_, rfl⟩
  | cons a l ih =>
    intro st
    obtain ⟨⟨y, s1⟩, h1⟩ := hf a st
    obtain ⟨⟨ys, s2⟩, h2⟩ := ih s1
    refine ⟨(y :: ys, s2), ?_⟩
    rw [List.mapM_cons]
    simp only [StateT.run_bind, h1, h2, Option.bind_eq_bind, Option.bind_some]
    rfl

theorem mkCipher_some (gen : Gen) {d : ℤ} {b r : ℕ} (hp : params w d = some (b, r)) : ∃ c, mkCipher gen 1 w d false = some c := by
  have hr : ∀ s k st, ∃ m, (randBlocks gen s k none 1).run st = some m := fun s k st => ⟨_, rfl⟩
  have hr' : ∀ (_ : ℕ) st, ∃ m, (randBlocks gen w 1 none 1 >>= fun m => (pure (m 0) : StateT ℕ Option (BitVec w))).run st = some m :=
    fun _ st => ⟨_, rfl⟩
  obtain ⟨⟨lin, s1⟩, h1⟩ := stateMapM_some (f := fun _ => randBlocks gen w w none 1) (fun _ st => hr w w st) (List.range r) 0
  obtain ⟨⟨cs, s2⟩, h2⟩ := stateMapM_some hr' (List.range r) s1
  obtain ⟨⟨km, s3⟩, h3⟩ := stateMapM_some (f := fun _ => randBlocks gen 128 w none 1) (fun _ st => hr 128 w st) (List.range (r + 1)) s2
  refine ⟨⟨b, r, lin, [], cs, km, none⟩, ?_⟩
  unfold mkCipher
  rw [hp]
  simp only [Option.bind_eq_bind, Option.bind_some]
  unfold fillMatrixes
  simp only [StateT.run_bind, Bool.false_eq_true, if_false, h1, Option.bind_eq_bind, Option.bind_some]
  have e1 : (liftM (some [] : Option (List (Rows w))) : StateT ℕ Option (List (Rows w))).run s1 = some ([], s1) := rfl
  rw [e1, Option.bind_some]
  dsimp only
  rw [h2, Option.bind_some]
  dsimp only
  rw [h3]
  rfl

/-- The kernel has a result exactly for arrays with at least one axis, of words of 32 bits and up to `2 ^ 30` elements, or of words of
64 or 128 bits and up to `2 ^ 40` elements. -/
theorem c82_kernel_defined (gen : Gen) {shape : Shape} {T : ℕ → Triples n} (hT : ∀ r, TriplesOk (T r)) (x : BArr n w)
    (key : Fin n → BitVec 128) : (∃ out, lowMcB gen shape T x key = some out) ↔
      shape ≠ [] ∧ ((w = 32 ∧ numel shape ≤ 2 ^ 30) ∨ ((w = 64 ∨ w = 128) ∧ numel shape ≤ 2 ^ 40)) := by
  have hpar : (∃ d br, dataComplexity (numel shape) = some d ∧ params w d = some br) ↔
      ((w = 32 ∧ numel shape ≤ 2 ^ 30) ∨ ((w = 64 ∨ w = 128) ∧ numel shape ≤ 2 ^ 40)) := by
    simp only [c82_complexity]
    have l1 : (2 : ℕ) ^ 20 ≤ 2 ^ 30 := by norm_num
    have l2 : (2 : ℕ) ^ 30 ≤ 2 ^ 40 := by norm_num
    generalize (2 : ℕ) ^ 20 = A at *
    generalize (2 : ℕ) ^ 30 = B at *
    generalize (2 : ℕ) ^ 40 = C at *
    constructor
    · rintro ⟨d, br, hd, hp⟩
      unfold params at hp
      split_ifs at hp <;> omega
    · intro h
      by_cases hA : numel shape ≤ A
      · refine ⟨20, ?_⟩
        rcases h with ⟨rfl, -⟩ | ⟨rfl | rfl, -⟩
        · exact ⟨(9, 15), Or.inl ⟨rfl, hA⟩, rfl⟩
        · exact ⟨(15, 11), Or.inl ⟨rfl, hA⟩, rfl⟩
        · exact ⟨(25, 10), Or.inl ⟨rfl, hA⟩, rfl⟩
      · by_cases hB : numel shape ≤ B
        · refine ⟨30, ?_⟩
          rcases h with ⟨rfl, -⟩ | ⟨rfl | rfl, -⟩
          · exact ⟨(9, 15), Or.inr (Or.inl ⟨rfl, by omega, hB⟩), rfl⟩
          · exact ⟨(13, 12), Or.inr (Or.inl ⟨rfl, by omega, hB⟩), rfl⟩
          · exact ⟨(25, 11), Or.inr (Or.inl ⟨rfl, by omega, hB⟩), rfl⟩
        · refine ⟨40, ?_⟩
          rcases h with ⟨rfl, h⟩ | ⟨rfl | rfl, h⟩
          · omega
          · exact ⟨(13, 13), Or.inr (Or.inr ⟨rfl, by omega, h⟩), rfl⟩
          · exact ⟨(25, 12), Or.inr (Or.inr ⟨rfl, by omega, h⟩), rfl⟩
  rw [← hpar]
  constructor
  · rintro ⟨out, h⟩
    unfold lowMcB at h
    simp only [Option.bind_eq_bind, Option.bind_eq_some_iff] at h
    obtain ⟨d, h1, c, h2, h3⟩ := h
    obtain ⟨hc, hk, hr, hp, -, -⟩ := c82_construct h2
    refine ⟨?_, d, _, h1, hp⟩
    rintro rfl
    rw [c82_scalar hr] at h3
    exact absurd h3 (by simp)
  · rintro ⟨hs, d, ⟨b, r⟩, h1, hp⟩
    obtain ⟨c, h2⟩ := mkCipher_some gen hp
    obtain ⟨hc, hk, -⟩ := c82_construct h2
    have hw : 3 ≤ w := by
      unfold params at hp
      split_ifs at hp <;> omega
    obtain ⟨c', out, -, h3, -⟩ := c82_shares hc hw hk hs hT x key
    exact ⟨out, by unfold lowMcB; rw [h1, Option.bind_eq_bind, Option.bind_some, h2]; exact h3⟩

/-! ### Several inputs -/

theorem concatBits_bit (hw : 0 < w) {dst : ℕ} (l : List (BitVec w)) (h : w * l.length ≤ dst) : ∃ y, concatBits l dst = some y ∧
    ∀ t < dst, y.getLsbD t = (l.getD (t / w) 0).getLsbD (t % w) := by
  refine ⟨_, if_pos h, ?_⟩
  have key : ∀ k ≤ l.length, ∀ t < dst, ((List.range k).foldl (fun r i => r ||| ((l.getD i 0).setWidth dst <<< (w * i))) (0 : BitVec dst)).getLsbD t =
      (decide (t / w < k) && (l.getD (t / w) 0).getLsbD (t % w)) := by
    intro k
    induction k with
    | zero => intro _ t _; simp
    | succ k ih =>
      intro hk t ht
      rw [List.range_succ, List.foldl_append, List.foldl_cons, List.foldl_nil, BitVec.getLsbD_or, ih (by omega) t ht,
        BitVec.getLsbD_shiftLeft, BitVec.getLsbD_setWidth]
      have hm := Nat.div_add_mod t w
      have hlt := Nat.mod_lt t hw
      rcases Nat.lt_trichotomy (t / w) k with hc | hc | hc
      · have h1 : t < w * k := (Nat.div_lt_iff_lt_mul hw).1 hc |>.trans_eq (Nat.mul_comm _ _)
        simp [hc, show t / w < k + 1 by omega, h1]
      · have h1 : t - w * k = t % w := by rw [← hc]; omega
        have h2 : ¬ t < w * k := by rw [← hc]; omega
        simp only [hc, h1, ht, h2, show ¬ k < k by omega, show k < k + 1 by omega, show t % w < dst by omega, decide_true, decide_false,
          Bool.true_and, Bool.false_and, Bool.false_or, Bool.not_false]
      · have h1 : w * (k + 1) ≤ t := le_trans (Nat.mul_le_mul_left w hc) (Nat.mul_div_le t w)
        have h2 : w ≤ t - w * k := by rw [Nat.mul_succ] at h1; omega
        rw [BitVec.getLsbD_of_ge _ _ h2]
        simp [show ¬ t / w < k by omega, show ¬ t / w < k + 1 by omega]
  intro t ht
  rw [key _ (le_refl _) t ht]
  by_cases hc : t / w < l.length
  · simp [hc]
  · simp [List.getD, hc, List.getElem?_eq_none (by omega : l.length ≤ t / w)]

/-- The remapping is a product of binary matrices, summed over the inputs. -/
theorem c82_remap {e : ℕ} (he : w = 2 ^ e) (mats : ℕ → Rows w) (l : List (BitVec w)) :
    gfBits (remapBits mats l) = ∑ i ∈ Finset.range l.length, (matOf 128 (mats i)).mulVec (gfBits (l.getD i 0)) := by
  have key : ∀ k, gfBits ((List.range k).foldl (fun r i => r ^^^ dotGf2 128 (mats i) (l.getD i 0)) (0 : BitVec 128)) =
      ∑ i ∈ Finset.range k, (matOf 128 (mats i)).mulVec (gfBits (l.getD i 0)) := by
    intro k
    induction k with
    | zero => exact gfBits_zero
    | succ k ih => rw [List.range_succ, List.foldl_append, List.foldl_cons, List.foldl_nil, gfBits_xor, ih, dotGf2_bits he,
        Finset.sum_range_succ]
  exact key _

theorem dstBits_ge {k : ℕ} (h : k ≤ 128) : k ≤ dstBits k := by
  unfold dstBits
  split_ifs <;> omega

theorem gfBits_xorAll (s : Fin n → BitVec w) : gfBits (xorAll s) = ∑ p, gfBits (s p) := by
  funext j
  rw [Finset.sum_apply]
  exact bz_xorAll s j

theorem multiKey_one (mats : ℕ → Rows w) {l : List (BitVec w)} (h : l.length = 1) : multiKeyInput mats l = some ⟨w, l.getD 0 0⟩ := by
  unfold multiKeyInput
  rw [if_neg (by omega), if_pos h]

theorem multiKey_concat (mats : ℕ → Rows w) {L : ℕ} {l : List (BitVec w)} (hl : l.length = L) (h : 1 < L) (h2 : w * L ≤ 128) :
    multiKeyInput mats l = (concatBits l (dstBits (w * L))).map (Sigma.mk _) := by
  subst hl
  unfold multiKeyInput
  rw [if_neg (by omega), if_neg (by omega), if_pos h2]
  cases concatBits l (dstBits (w * l.length)) <;> rfl

theorem multiKey_remap (mats : ℕ → Rows w) {L : ℕ} {l : List (BitVec w)} (hl : l.length = L) (h : 1 < L) (h2 : 128 < w * L) :
    multiKeyInput mats l = some ⟨128, remapBits mats l⟩ := by
  subst hl
  unfold multiKeyInput
  rw [if_neg (by omega), if_neg (by omega), if_neg (by omega)]

/-- Combining the parties' shares of several inputs gives shares of the combination of the inputs, of one width for all parties. -/
theorem c82_multi_shares {e L : ℕ} (he : w = 2 ^ e) (hL : 0 < L) (mats : ℕ → Rows w) (inputs : Fin L → Fin n → BitVec w) :
    ∃ (v : ℕ) (f : Fin n → BitVec v), (∀ p, multiKeyInput mats (List.ofFn fun i => inputs i p) = some ⟨v, f p⟩) ∧
      multiKeyInput mats (List.ofFn fun i => xorAll (inputs i)) = some ⟨v, xorAll f⟩ := by
  have hw : 0 < w := by rw [he]; exact Nat.two_pow_pos e
  have hget : ∀ (g : Fin L → BitVec w) i, (List.ofFn g).getD i 0 = if h : i < L then g ⟨i, h⟩ else 0 := by
    intro g i
    by_cases h : i < L
    · simp [List.getD, h]
    · simp [List.getD, h]
  have hx : ∀ i, xorAll (fun p => (List.ofFn fun i => inputs i p).getD i 0) = (List.ofFn fun i => xorAll (inputs i)).getD i 0 := by
    intro i
    simp only [hget]
    by_cases h : i < L
    · simp only [h, dif_pos]
    · simp only [h, dif_neg, not_false_eq_true]
      refine BitVec.eq_of_getLsbD_eq fun t _ => bz_inj ?_
      rw [bz_xorAll]
      simp [bz]
  by_cases h1 : L = 1
  · refine ⟨w, fun p => (List.ofFn fun i => inputs i p).getD 0 0, fun p => multiKey_one mats (by rw [List.length_ofFn, h1]), ?_⟩
    rw [multiKey_one mats (by rw [List.length_ofFn, h1]), hx 0]
  · by_cases h2 : w * L ≤ 128
    · choose y hy1 hy2 using fun p => concatBits_bit hw (dst := dstBits (w * L)) (List.ofFn fun i => inputs i p)
        (by rw [List.length_ofFn]; exact dstBits_ge h2)
      obtain ⟨z, hz1, hz2⟩ := concatBits_bit hw (dst := dstBits (w * L)) (List.ofFn fun i => xorAll (inputs i))
        (by rw [List.length_ofFn]; exact dstBits_ge h2)
      refine ⟨dstBits (w * L), y, fun p => by rw [multiKey_concat mats List.length_ofFn (by omega) h2, hy1 p]; rfl, ?_⟩
      rw [multiKey_concat mats List.length_ofFn (by omega) h2, hz1]
      have : z = xorAll y := by
        refine BitVec.eq_of_getLsbD_eq fun t ht => ?_
        rw [hz2 t ht, ← hx]
        exact (xorAll_bit2 fun p => hy2 p t ht).symm
      rw [this]; rfl
    · refine ⟨128, fun p => remapBits mats (List.ofFn fun i => inputs i p), fun p =>
        multiKey_remap mats List.length_ofFn (by omega) (by omega), ?_⟩
      have : remapBits mats (List.ofFn fun i => xorAll (inputs i)) = xorAll fun p => remapBits mats (List.ofFn fun i => inputs i p) := by
        apply gfBits_inj
        rw [gfBits_xorAll, c82_remap he]
        simp only [c82_remap he, List.length_ofFn]
        rw [Finset.sum_comm]
        refine Finset.sum_congr rfl fun i _ => ?_
        rw [← hx, gfBits_xorAll, Matrix.mulVec_sum]
      rw [multiKey_remap mats List.length_ofFn (by omega) (by omega), this]

/-- Up to 128 bits in all, different inputs are combined to different blocks. -/
theorem c82_multi_injective {L : ℕ} (hw : 0 < w) (h : w * L ≤ 128) (mats : ℕ → Rows w) (a b : Fin L → BitVec w)
    (hab : multiKeyInput mats (List.ofFn a) = multiKeyInput mats (List.ofFn b)) (hL : 0 < L) : a = b := by
  have hget : ∀ (g : Fin L → BitVec w) (i : Fin L), (List.ofFn g).getD i 0 = g i := by
    intro g i
    simp [List.getD]
  by_cases h1 : L = 1
  · subst h1
    rw [multiKey_one mats List.length_ofFn, multiKey_one mats List.length_ofFn, Option.some_inj] at hab
    have := eq_of_heq (Sigma.mk.inj hab).2
    funext i
    have hi : i = 0 := Subsingleton.elim _ _
    subst hi
    have h3 := hget a 0
    have h4 := hget b 0
    rw [← h3, ← h4]
    exact this
  · rw [multiKey_concat mats List.length_ofFn (by omega) h, multiKey_concat mats List.length_ofFn (by omega) h] at hab
    obtain ⟨y, hy1, hy2⟩ := concatBits_bit hw (dst := dstBits (w * L)) (List.ofFn a) (by rw [List.length_ofFn]; exact dstBits_ge h)
    obtain ⟨z, hz1, hz2⟩ := concatBits_bit hw (dst := dstBits (w * L)) (List.ofFn b) (by rw [List.length_ofFn]; exact dstBits_ge h)
    rw [hy1, hz1] at hab
    simp only [Option.map_some, Option.some_inj] at hab
    have hyz : y = z := eq_of_heq (Sigma.mk.inj hab).2
    funext i
    refine BitVec.eq_of_getLsbD_eq fun t ht => ?_
    have h5 : (w * i.val + t) / w = i.val := by rw [Nat.mul_add_div hw, Nat.div_eq_of_lt ht, Nat.add_zero]
    have h6 : (w * i.val + t) % w = t := by rw [Nat.mul_add_mod, Nat.mod_eq_of_lt ht]
    have h7 : w * i.val + t < dstBits (w * L) := by
      have := dstBits_ge h
      have h8 : w * (i.val + 1) ≤ w * L := Nat.mul_le_mul_left w i.isLt
      rw [Nat.mul_succ] at h8
      omega
    have e1 := hy2 _ h7
    have e2 := hz2 _ h7
    rw [h5, h6, hget] at e1 e2
    rw [← e1, ← e2, hyz]

/-- Beyond 128 bits, two different inputs are combined to the same block, whatever the matrices. -/
theorem c82_multi_collide {L : ℕ} (h : 128 < w * L) (hL : 1 < L) (mats : ℕ → Rows w) : ∃ a b : Fin L → BitVec w, a ≠ b ∧
    ∃ y, multiKeyInput mats (List.ofFn a) = some y ∧ multiKeyInput mats (List.ofFn b) = some y := by
  have hcard : Fintype.card (Fin (2 ^ 128)) < Fintype.card (Fin L → Fin (2 ^ w)) := by
    rw [Fintype.card_fun, Fintype.card_fin, Fintype.card_fin, Fintype.card_fin, ← pow_mul]
    exact Nat.pow_lt_pow_right (by norm_num) h
  obtain ⟨a, b, hab, he⟩ := Fintype.exists_ne_map_eq_of_card_lt
    (fun a : Fin L → Fin (2 ^ w) => (remapBits mats (List.ofFn fun i => BitVec.ofFin (a i))).toFin) hcard
  refine ⟨fun i => BitVec.ofFin (a i), fun i => BitVec.ofFin (b i), fun hh => hab ?_, ⟨128, remapBits mats (List.ofFn fun i => BitVec.ofFin (a i))⟩,
    multiKey_remap mats List.length_ofFn hL h, ?_⟩
  · funext i
    exact congrArg BitVec.toFin (congrFun hh i)
  · rw [multiKey_remap mats List.length_ofFn hL h, BitVec.toFin_inj.1 he]

/-! ### Examples -/

/-- a generator of zero matrices and constants and identity key matrices -/
def zeroGen : Gen := fun s _ cnt => (fun i => if s = 128 then 1#s <<< i else 0, cnt)

/-- zero triples -/
def zeroTriples : ℕ → Triples 2 := fun _ _ => (fun _ => 0, fun _ => 0, fun _ => 0)

theorem zeroTriples_ok (r : ℕ) : TriplesOk (zeroTriples r) := fun _ => by unfold zeroTriples; decide

/-- the cipher of the kernel from `zeroGen` -/
def zeroCipher : Cipher 32 := ⟨9, 15, List.replicate 15 fun _ => 0, [], List.replicate 15 0, List.replicate 16 fun i => 1#128 <<< i, none⟩

theorem zeroCipher_eq : mkCipher zeroGen 1 32 20 false = some zeroCipher := rfl

theorem dotGf2_zero {s k e : ℕ} (hs : s = 2 ^ e) (y : BitVec s) : dotGf2 k (fun _ => 0) y = 0 :=
  gfBits_inj (by
    have : matOf (s := s) k (fun _ => 0) = 0 := by
      funext i
      exact gfBits_zero
    rw [dotGf2_bits hs, this, Matrix.zero_mulVec, gfBits_zero])

theorem dotGf2_ident {s k e : ℕ} (hs : s = 2 ^ e) (hk : k ≤ s) (y : BitVec s) : dotGf2 k (fun i => 1#s <<< i) y = y.setWidth k :=
  gfBits_inj (by
    rw [dotGf2_bits hs]
    funext i
    have hi : (i : ℕ) < s := by omega
    have hsum : (matOf k (fun i => 1#s <<< i)).mulVec (gfBits y) i =
        ∑ j : Fin s, gfBits (1#s <<< (i : ℕ)) j * gfBits y j := rfl
    rw [hsum]
    refine (Finset.sum_eq_single (⟨i, hi⟩ : Fin s) ?_ ?_).trans ?_
    · intro j _ hj
      have : (j : ℕ) ≠ i := fun h => hj (Fin.ext h)
      simp only [matOf, gfBits, BitVec.getLsbD_shiftLeft, BitVec.getLsbD_one]
      by_cases h1 : (j : ℕ) < i
      · simp [h1]
      · simp [show (j : ℕ) - i ≠ 0 by omega]
    · intro h; exact absurd (Finset.mem_univ _) h
    · simp [matOf, gfBits, hi, show 0 < s by omega])

theorem zeroCipher_kernel (x : BArr 2 32) (key : Fin 2 → BitVec 128) :
    lowMcB zeroGen [1] zeroTriples x key = encryptShares zeroCipher [1] zeroTriples x key := by
  have : dataComplexity (numel [1]) = some 20 := (c82_complexity _ _).2 (Or.inl ⟨rfl, by decide⟩)
  unfold lowMcB
  rw [this, Option.bind_eq_bind, Option.bind_some, zeroCipher_eq, Option.bind_eq_bind, Option.bind_some]

theorem zeroCipher_keys (k : BitVec 128) : roundKeys 32 zeroCipher.keyMats k zeroCipher.rounds =
    some (List.replicate 16 (dotGf2 32 (fun i => 1#128 <<< i) k)) := by
  have : zeroCipher.keyMats = List.replicate 16 fun i => 1#128 <<< i := rfl
  unfold roundKeys
  rw [this, if_pos (by rw [List.length_replicate]; rfl), List.map_replicate]

theorem getD_replicate {α : Type} {m i : ℕ} (h : i < m) (a d : α) : (List.replicate m a).getD i d = a := by
  simp [List.getD, h]

/-- The declared bit counts can be too small and differ between the parties: with these matrices the result of the kernel on words
declared to have one bit opens to `2 ^ 31`, while party 0 declares one bit and party 1 declares 32. -/
theorem c82_bitcount_low : ∃ (gen : Gen) (x : BArr 2 32) (key : Fin 2 → BitVec 128) (out : BArr 2 32),
    (∀ p, x.nb p = 1) ∧ (xorAll fun p => x.sh p 0).toNat < 2 ^ 1 ∧ lowMcB gen [1] zeroTriples x key = some out ∧
      xorAll (fun p => out.sh p 0) = BitVec.ofNat 32 (2 ^ 31) ∧ out.nb 0 = 1 ∧ out.nb 1 = 32 := by
  have hc : CipherOk zeroCipher := (c82_construct zeroCipher_eq).1
  obtain ⟨key, hkey⟩ : ∃ key : Fin 2 → BitVec 128, key = fun p => if p = 0 then 0 else BitVec.ofNat 128 (2 ^ 31) := ⟨_, rfl⟩
  obtain ⟨x, hx⟩ : ∃ x : BArr 2 32, x = ⟨fun p _ => if p = 0 then 5 else 4, fun _ => 1⟩ := ⟨_, rfl⟩
  obtain ⟨ks, h1, -⟩ := roundKeys_ok hc (xorAll key)
  obtain ⟨out, o1, o2, o3⟩ := encryptShares_ok hc (by norm_num) (shape := [1]) (by simp) zeroTriples_ok x key h1
  have hks : ks.getD (14 + 1) 0 = dotGf2 32 (fun i => 1#128 <<< i) (xorAll key) := by
    rw [zeroCipher_keys, Option.some_inj] at h1
    rw [← h1, getD_replicate (by norm_num)]
  have hX : xorAll key = BitVec.ofNat 128 (2 ^ 31) := by rw [hkey]; decide
  have hid : ∀ y : BitVec 128, dotGf2 32 (fun i => 1#128 <<< i) y = y.setWidth 32 := fun y =>
    dotGf2_ident (e := 7) (by norm_num) (by norm_num) y
  have e1 : zeroCipher.rounds = 14 + 1 := rfl
  have e2 : zeroCipher.lin.getD 14 (fun _ => 0) = fun _ => 0 := getD_replicate (by norm_num) _ _
  have e3 : zeroCipher.const.getD 14 0 = 0 := getD_replicate (by norm_num) _ _
  have e4 : zeroCipher.keyMats.getD (14 + 1) (fun _ => 0) = fun i => 1#128 <<< i := getD_replicate (by norm_num) _ _
  have hnb : ∀ p, out.nb p = max (max 1 (wordWidth (0 : BitVec 32))) (wordWidth ((key p).setWidth 32)) := by
    intro p
    rw [o3 p, e1, declaredBits, e3, e4, hid, hx]
  have hz : wordWidth (0 : BitVec 32) = 0 := Nat.size_zero
  refine ⟨zeroGen, x, key, out, fun p => by rw [hx], by rw [hx]; decide, ?_, ?_, ?_, ?_⟩
  · rw [zeroCipher_kernel]; exact o1
  · rw [o2 0 (by decide)]
    rw [e1, encState, encRound, e2, e3, hks, hid, hX, dotGf2_zero (e := 5) rfl]
    decide
  · have : wordWidth ((key 0).setWidth 32) = 0 := by
      have : (key 0).setWidth 32 = 0 := by rw [hkey]; decide
      rw [this, hz]
    rw [hnb 0, hz, this]; rfl
  · have : wordWidth ((key 1).setWidth 32) = 32 := by
      have : (key 1).setWidth 32 = BitVec.ofNat 32 (2 ^ 31) := by rw [hkey]; decide
      have h2 : (BitVec.ofNat 32 (2 ^ 31)).toNat = 2 ^ 31 := by decide
      rw [this]
      unfold wordWidth
      rw [h2, Nat.size_pow]
    rw [hnb 1, hz, this]; rfl

/-- A generator for which encryption is not injective: the linear layers have rank 0. -/
example : ∃ c', setKey zeroCipher 7 = some c' ∧ ¬ Function.Injective (encrypt c') := by
  obtain ⟨c', h1, h2⟩ := c82_injective (c82_construct zeroCipher_eq).1 rfl 7
  refine ⟨c', h1, fun h => ?_⟩
  have := h2.1 h 0 (by decide)
  have h0 : linMat zeroCipher 0 = 0 := by
    funext i
    exact gfBits_zero
  rw [h0, Matrix.rank_zero] at this
  exact absurd this (by norm_num)

/-- The kernel has a result on this array. -/
example (x : BArr 2 64) (key : Fin 2 → BitVec 128) : ∃ out, lowMcB zeroGen [3, 2] zeroTriples x key = some out :=
  (c82_kernel_defined _ zeroTriples_ok x key).2 ⟨by simp, Or.inr ⟨Or.inl rfl, by decide⟩⟩

/-- and none on an array of the same size without axes or with too many elements -/
example (x : BArr 2 64) (key : Fin 2 → BitVec 128) : ¬ ∃ out, lowMcB zeroGen [] zeroTriples x key = some out := fun h =>
  ((c82_kernel_defined _ zeroTriples_ok x key).1 h).1 rfl

example (x : BArr 2 32) (key : Fin 2 → BitVec 128) : ¬ ∃ out, lowMcB zeroGen [2 ^ 30 + 1] zeroTriples x key = some out := fun h => by
  have := ((c82_kernel_defined _ zeroTriples_ok x key).1 h).2
  have hn : numel [2 ^ 30 + 1] = 2 ^ 30 + 1 := by decide
  rw [hn] at this
  omega

/-- Two words of 32 bits make a block of 64, three a block of 128. -/
example : multiKeyInput (w := 32) (fun _ _ => 0) [1, 2] = some ⟨64, 0x200000001#64⟩ := by decide +kernel
example : multiKeyInput (w := 32) (fun _ _ => 0) [1, 2, 3] = some ⟨128, 0x30000000200000001#128⟩ := by decide +kernel

/-- S-boxes on shares: 0b101 is mapped to 0b100, the upper bit is kept. -/
example : (sboxShares (n := 2) (w := 4) 1 [1] (zeroTriples 0) ⟨fun p _ => if p = 0 then 0b0110 else 0b1011, fun _ => 4⟩).map
    (fun y => y.sh 0 0 ^^^ y.sh 1 0) = some 0b1100#4 := by decide +kernel

end
end Spu.Props

import Verif.Lemmas.SwiftBool
import Verif.Props.SwiftTrunc
import Verif.Props.Semi2kGates

set_option autoImplicit false

/-!
# C88: SWIFT's boolean shares and conversions
-/

namespace Spu.Props.Swift
open Spu.Model.Swift Spu.Spec.Swift Spu.Lemmas.Swift Spu.Lemmas
open Spu.Spec (Sound Ok)
open Spu.Model.Semi2kConv (wordWidth bitrev)

variable {w : ℕ}

/-! ## Opening and local kernels -/

/-- **C88**: every party opens a boolean share to the same word, and nothing is reported. -/
theorem c88_b2p (H : HashFn) {x : Fin 3 → Shr (BitVec w)} {v : BitVec w} (h : BShares x v) (u : BitVec w) (al : Bool) :
    (b2p H x u).run al = some (fun _ => v, al) := by
  obtain ⟨a1, a2, be, ga, l, rfl⟩ := h
  unfold b2p
  rw [StateT.run_bind, jmp_run _ _ _ _ _ (by simp [beOf, l.p1, l.p2])]
  simp only [Option.bind_eq_bind, Option.bind_some]
  rw [StateT.run_bind, jmp_run _ _ _ _ _ (by simp [al1Of, l.p0, l.p1])]
  simp only [Option.bind_eq_bind, Option.bind_some]
  rw [StateT.run_bind, jmp_run _ _ _ _ _ (by simp [al2Of, l.p0, l.p2])]
  simp only [Option.bind_eq_bind, Option.bind_some]
  refine congrArg some (Prod.ext ?_ rfl)
  funext i
  fin_cases i <;> simp [beOf, al1Of, al2Of, Function.update, l.p0, l.p1, l.p2]

theorem bshares_map {f : BitVec w → BitVec w} (hf : XLin f) {x : Fin 3 → Shr (BitVec w)} {v : BitVec w} (h : BShares x v) :
    BShares (mapS f x) (f v) := by
  obtain ⟨a1, a2, be, ga, l, rfl⟩ := h
  exact ⟨f a1, f a2, f be, f ga, ⟨by simp [mapS, l.p0, hf.add], by simp [mapS, l.p1], by simp [mapS, l.p2]⟩,
    by rw [hf.add, hf.add]⟩

theorem mapSO_eq {f : BitVec w → Option (BitVec w)} {g : BitVec w → BitVec w} (h : ∀ x, f x = some (g x))
    (x : Fin 3 → Shr (BitVec w)) : mapSO f x = some (mapS g x) := by
  unfold mapSO
  simp [h]

/-- the parties hold a sharing of `x`, of which the declared number of bits is right -/
def HoldsB (a : BSh w) (x : BitVec w) : Prop := BShares a.sh x ∧ x.toNat < 2 ^ a.nb ∧ a.nb ≤ w

theorem c88_p2b (p : BitVec w) : HoldsB (p2b p) p ∧ (p2b p).nb = Spu.Spec.bitWidth p :=
  ⟨⟨⟨0, 0, p, 0, ⟨by simp [p2b], by simp [p2b], by simp [p2b]⟩, by simp⟩, lt_wordWidth p, wordWidth_le p⟩, rfl⟩

theorem c88_xorBB {a b : BSh w} {x y : BitVec w} (ha : HoldsB a x) (hb : HoldsB b y) :
    HoldsB (xorBB a b) (x ^^^ y) ∧ (xorBB a b).nb = max a.nb b.nb := by
  refine ⟨⟨?_, xor_lt ha.2.1 hb.2.1, max_le ha.2.2 hb.2.2⟩, rfl⟩
  obtain ⟨a1, a2, be, ga, l, rfl⟩ := ha.1
  obtain ⟨c1, c2, de, gb, m, rfl⟩ := hb.1
  exact ⟨a1 ^^^ c1, a2 ^^^ c2, be ^^^ de, ga ^^^ gb, ⟨by simp [xorBB, l.p0, m.p0]; ac_rfl, by simp [xorBB, l.p1, m.p1],
    by simp [xorBB, l.p2, m.p2]⟩, by ac_rfl⟩

theorem c88_xorBP {a : BSh w} {x : BitVec w} (ha : HoldsB a x) (p : BitVec w) :
    HoldsB (xorBP a p) (x ^^^ p) ∧ (xorBP a p).nb = max a.nb (Spu.Spec.bitWidth p) := by
  refine ⟨⟨?_, xor_lt ha.2.1 (lt_wordWidth p), max_le ha.2.2 (wordWidth_le p)⟩, rfl⟩
  obtain ⟨a1, a2, be, ga, l, rfl⟩ := ha.1
  exact ⟨a1, a2, be ^^^ p, ga, ⟨by simp [xorBP, l.p0]; ac_rfl, by simp [xorBP, l.p1], by simp [xorBP, l.p2]⟩, by ac_rfl⟩

theorem c88_andBP {a : BSh w} {x : BitVec w} (ha : HoldsB a x) (p : BitVec w) :
    HoldsB (andBP a p) (x &&& p) ∧ (andBP a p).nb = min a.nb (Spu.Spec.bitWidth p) :=
  ⟨⟨bshares_map (xlin_and p) ha.1, and_lt ha.2.1 (lt_wordWidth p), le_trans (min_le_left _ _) ha.2.2⟩, rfl⟩

theorem c88_lshiftB {a : BSh w} {x : BitVec w} (ha : HoldsB a x) {s : ℕ} (hs : s < w) :
    ∃ c, lshiftB a s = some c ∧ HoldsB c (x <<< s) ∧ c.nb = min (a.nb + s) w :=
  ⟨_, if_pos hs, ⟨bshares_map xlin_shl ha.1, shl_lt ha.2.1, min_le_right _ _⟩, rfl⟩

theorem c88_rshiftB {a : BSh w} {x : BitVec w} (ha : HoldsB a x) {s : ℕ} (hs : s < w) :
    ∃ c, rshiftB a s = some c ∧ HoldsB c (x >>> s) ∧ c.nb = a.nb - s :=
  ⟨_, if_pos ⟨hs, ha.2.2⟩, ⟨bshares_map xlin_shr ha.1, shr_lt ha.2.1, le_trans (Nat.sub_le _ _) ha.2.2⟩,
    by show a.nb - min a.nb s = _; omega⟩

theorem c88_arshiftB {a : BSh w} {x : BitVec w} (ha : HoldsB a x) {s : ℕ} (hs : s < w) :
    ∃ c, arshiftB a s = some c ∧ HoldsB c (x.sshiftRight s) ∧ c.nb = w :=
  ⟨_, if_pos hs, ⟨bshares_map xlin_sshr ha.1, BitVec.isLt _, le_rfl⟩, rfl⟩

/-- **C88**: bit reversal, for ranges that end below the width (at the width it is undefined, property C46). -/
theorem c88_bitrevB {a : BSh w} {x : BitVec w} (ha : HoldsB a x) {start stop : ℕ} (h1 : start ≤ stop) (h2 : stop < w) :
    ∃ c r, bitrevB a start stop = some c ∧ HoldsB c r ∧ c.nb = max a.nb stop ∧
      ∀ i, i < w → r.getLsbD i = x.getLsbD (Spu.Spec.revIdx start stop i) := by
  have hf : ∀ x : BitVec w, bitrev x start stop = some ((bitrev x start stop).getD 0) := by
    intro x
    obtain ⟨r, hr, _⟩ := c46_bitrev h1 h2 x
    rw [hr]; rfl
  have hb : ∀ (x : BitVec w) i, i < w → ((bitrev x start stop).getD 0).getLsbD i = x.getLsbD (Spu.Spec.revIdx start stop i) := by
    intro x i hi
    obtain ⟨r, hr, h⟩ := c46_bitrev h1 h2 x
    rw [hr]; exact h i hi
  refine ⟨_, _, by rw [bitrevB, if_pos ⟨h1, h2.le⟩, mapSO_eq hf]; rfl, ⟨bshares_map (xlin_of_bits _ hb) ha.1, ?_, max_le ha.2.2 h2.le⟩,
    rfl, fun i hi => hb x i hi⟩
  refine lt_of_bits fun i hi => ?_
  by_cases hiw : i < w
  · have hi2 : max a.nb stop ≤ i := hi
    have e : Spu.Spec.revIdx start stop i = i := by unfold Spu.Spec.revIdx; rw [if_neg (by omega)]
    rw [hb _ i hiw, e, bit_of_lt ha.2.1 (by omega)]
  · exact BitVec.getLsbD_of_ge _ _ (by omega)

open Spu.Model.Bits in
theorem c88_bitdeintlB {M m s : ℕ} (hwM : w = 2 ^ M) (h128 : w ≤ 128) {a : BSh w} {x r : BitVec w} (ha : HoldsB a x) (hnb : a.nb = 2 ^ m)
    (hr : bitDeintl x s (2 ^ m) = some r) : ∃ c, bitdeintlB a s = some c ∧ HoldsB c r ∧ c.nb = a.nb := by
  have hm : 2 ^ m ≤ w := hnb ▸ ha.2.2
  have hl := levels_both (s := s) hwM h128 hm
  obtain ⟨f, hf, lf⟩ := fold_lin (w := w) (deintlLevels s (2 ^ m)) fun l h => (hl l h).1
  have e : r = f x := by have := hf x; unfold bitDeintl at hr; rw [hr] at this; exact Option.some_inj.1 this
  refine ⟨⟨a.nb, mapS f a.sh⟩, by rw [bitdeintlB, if_pos (by rw [hnb]; exact singleBit_pow m), mapSO_eq (fun x => by rw [hnb]; exact hf x)]; rfl,
    ⟨e ▸ bshares_map lf ha.1, ?_, ha.2.2⟩, rfl⟩
  show r.toNat < 2 ^ a.nb
  rw [hnb]
  exact fold_lt h128 _ hl (hnb ▸ ha.2.1) hr

open Spu.Model.Bits in
theorem c88_bitintlB {M m s : ℕ} (hwM : w = 2 ^ M) (h128 : w ≤ 128) {a : BSh w} {x r : BitVec w} (ha : HoldsB a x) (hnb : a.nb = 2 ^ m)
    (hr : bitIntl x s (2 ^ m) = some r) : ∃ c, bitintlB a s = some c ∧ HoldsB c r ∧ c.nb = a.nb := by
  have hm : 2 ^ m ≤ w := hnb ▸ ha.2.2
  have hl : ∀ l ∈ intlLevels s (2 ^ m), l < 6 ∧ 2 ^ (l + 2) ∣ 2 ^ m ∧ 2 ^ (l + 2) ∣ w :=
    fun l h => levels_both (s := s) hwM h128 hm l (List.mem_reverse.1 h)
  obtain ⟨f, hf, lf⟩ := fold_lin (w := w) (intlLevels s (2 ^ m)) fun l h => (hl l h).1
  have e : r = f x := by have := hf x; unfold bitIntl at hr; rw [hr] at this; exact Option.some_inj.1 this
  refine ⟨⟨a.nb, mapS f a.sh⟩, by rw [bitintlB, if_pos (by rw [hnb]; exact singleBit_pow m), mapSO_eq (fun x => by rw [hnb]; exact hf x)]; rfl,
    ⟨e ▸ bshares_map lf ha.1, ?_, ha.2.2⟩, rfl⟩
  show r.toNat < 2 ^ a.nb
  rw [hnb]
  exact fold_lt h128 _ hl (hnb ▸ ha.2.1) hr

/-! ## Conjunction -/

section And
variable {N : ℕ}

/-- **C88**: the cut-and-choose of `AndPre`, when the third value of any triple may be off: after the public
shuffle it goes through exactly if the three opened triples are right and the three triples of every bucket are
off by the same word, and then the product of element `j` is off by that word. -/
theorem c88_andPre {D : AndRand w} (ha : ∀ n, Paired (D.a0 n) (D.a1 n)) (hb : ∀ n, Paired (D.b0 n) (D.b1 n))
    (x y : Rss (Fin N → BitVec w)) :
    let e := fun n => error D (shuffle (N * 3 + 3) (fun j => (D.idx j).toNat) n)
    if (∀ n < 3, e n = 0#w) ∧ ∀ j < N, e (3 + j * 3) = e (3 + j * 3 + 1) ∧ e (3 + j * 3) = e (3 + j * 3 + 2) then
      ∃ z, andPre N D x y = some z ∧ ∀ (j : Fin N) v u, RepB (rssAt x j) v → RepB (rssAt y j) u →
        RepB (rssAt z j) ((v &&& u) ^^^ e (3 + j * 3))
    else andPre N D x y = none := andPre_any N ha hb x y

/-- the shuffle only moves the triples that exist, and loses none -/
theorem c88_shuffle (m : ℕ) (r : ℕ → ℕ) : (∀ n < m, shuffle m r n < m) ∧ ∀ n, m ≤ n → shuffle m r n = n :=
  ⟨fun _ h => shuffle_lt m r h, fun _ h => shuffle_ge m r h⟩

/-- swaps of the places from `k` on -/
def tailSwaps (m k : ℕ) (r : ℕ → ℕ) : Equiv.Perm ℕ :=
  ((List.range' k (m - k)).map fun j => Equiv.swap j (r j % (m - j) + j)).prod

theorem tailSwaps_end (m : ℕ) (r : ℕ → ℕ) : tailSwaps m m r = 1 := by simp [tailSwaps]

theorem tailSwaps_step {m k : ℕ} (h : k < m) (r : ℕ → ℕ) :
    tailSwaps m k r = Equiv.swap k (r k % (m - k) + k) * tailSwaps m (k + 1) r := by
  unfold tailSwaps
  rw [show m - k = (m - (k + 1)) + 1 by omega, List.range'_succ, List.map_cons, List.prod_cons,
    show m - (k + 1) + 1 = m - k by omega]

theorem tailSwaps_congr {m k : ℕ} {r r' : ℕ → ℕ} (h : ∀ j, k ≤ j → r j = r' j) : tailSwaps m k r = tailSwaps m k r' := by
  unfold tailSwaps
  congr 1
  refine List.map_congr_left fun j hj => ?_
  rw [h j (List.mem_range'_1.1 hj).1]

theorem tailSwaps_lt {m : ℕ} (r : ℕ → ℕ) : ∀ d k, k + d = m → ∀ n < k, tailSwaps m k r n = n := by
  intro d
  induction d with
  | zero =>
    intro k hk n _
    obtain rfl : k = m := by omega
    rw [tailSwaps_end]; rfl
  | succ d ih =>
    intro k hk n hn
    rw [tailSwaps_step (by omega), Equiv.Perm.mul_apply, ih (k + 1) (by omega) n (by omega)]
    exact Equiv.swap_apply_of_ne_of_ne (by omega) (by omega)

theorem tailSwaps_self {m k : ℕ} (h : k < m) {r : ℕ → ℕ} (hr : r k < m - k) : tailSwaps m k r k = r k + k := by
  rw [tailSwaps_step h, Equiv.Perm.mul_apply, tailSwaps_lt r (m - (k + 1)) (k + 1) (by omega) k (by omega),
    Equiv.swap_apply_left, Nat.mod_eq_of_lt hr]

theorem tailSwaps_surj {m : ℕ} : ∀ d k, k + d = m → ∀ σ : Equiv.Perm ℕ, (∀ n < k, σ n = n) → (∀ n, m ≤ n → σ n = n) →
    ∃ r : ℕ → ℕ, (∀ j, k ≤ j → j < m → r j < m - j) ∧ (∀ j, m ≤ j → r j = 0) ∧ tailSwaps m k r = σ := by
  intro d
  induction d with
  | zero =>
    intro k hk σ h1 h2
    obtain rfl : k = m := by omega
    refine ⟨fun _ => 0, fun j _ _ => by omega, fun _ _ => rfl, ?_⟩
    rw [tailSwaps_end]
    ext n
    by_cases h : n < k
    · rw [h1 n h]; rfl
    · rw [h2 n (by omega)]; rfl
  | succ d ih =>
    intro k hk σ h1 h2
    have hik : k ≤ σ k := by
      by_contra h
      have := σ.injective (h1 (σ k) (by omega))
      omega
    have him : σ k < m := by
      by_contra h
      have := σ.injective (h2 (σ k) (by omega))
      omega
    obtain ⟨r, a, b, c⟩ := ih (k + 1) (by omega) (Equiv.swap k (σ k) * σ) (fun n hn => by
      rw [Equiv.Perm.mul_apply]
      rcases Nat.lt_succ_iff_lt_or_eq.1 hn with hn | rfl
      · rw [h1 n hn]
        exact Equiv.swap_apply_of_ne_of_ne (by omega) (by omega)
      · exact Equiv.swap_apply_right _ _) (fun n hn => by
      rw [Equiv.Perm.mul_apply, h2 n hn]
      exact Equiv.swap_apply_of_ne_of_ne (by omega) (by omega))
    refine ⟨Function.update r k (σ k - k), fun j hj hm => ?_, fun j hj => ?_, ?_⟩
    · by_cases e : j = k
      · subst e
        rw [Function.update_self]; omega
      · rw [Function.update_of_ne e]
        exact a j (by omega) hm
    · rw [Function.update_of_ne (by omega)]
      exact b j hj
    · rw [tailSwaps_step (by omega), tailSwaps_congr (r' := r) (fun j hj => Function.update_of_ne (by omega) _ _), c,
        Function.update_self, Nat.mod_eq_of_lt (by omega), Nat.sub_add_cancel hik, ← mul_assoc, Equiv.swap_mul_self, one_mul]

theorem tailSwaps_inj {m : ℕ} {r r' : ℕ → ℕ} : ∀ d k, k + d = m → (∀ j, k ≤ j → j < m → r j < m - j) →
    (∀ j, k ≤ j → j < m → r' j < m - j) → tailSwaps m k r = tailSwaps m k r' → ∀ j, k ≤ j → j < m → r j = r' j := by
  intro d
  induction d with
  | zero => intro k hk _ _ _ j _ _; omega
  | succ d ih =>
    intro k hk h h' e j hj hm
    have ek : r k = r' k := by
      have := congrArg (fun σ : Equiv.Perm ℕ => σ k) e
      simp only [tailSwaps_self (show k < m by omega) (h k le_rfl (by omega)),
        tailSwaps_self (show k < m by omega) (h' k le_rfl (by omega))] at this
      omega
    rcases hj.lt_or_eq with hj | rfl
    · rw [tailSwaps_step (by omega) r, tailSwaps_step (by omega) r', ek] at e
      exact ih (k + 1) (by omega) (fun j a => h j (by omega)) (fun j a => h' j (by omega)) (mul_left_cancel e) j hj hm
    · exact ek

/-- **C88**: every arrangement of the `m` triples comes from exactly one sequence of draws, so that uniform draws
give a uniform arrangement. -/
theorem c88_shuffle_unique (m : ℕ) (σ : Equiv.Perm ℕ) (hσ : ∀ n, m ≤ n → σ n = n) :
    ∃! r : ℕ → ℕ, ((∀ j < m, r j < m - j) ∧ ∀ j, m ≤ j → r j = 0) ∧ shuffle m r = σ := by
  have e : ∀ r, shuffle m r = tailSwaps m 0 r := fun r => by unfold shuffle tailSwaps; rw [List.range_eq_range', Nat.sub_zero]
  obtain ⟨r, a, b, c⟩ := tailSwaps_surj m 0 (by omega) σ (fun n hn => by omega) hσ
  refine ⟨r, ⟨⟨fun j hj => a j (by omega) hj, b⟩, by rw [e, c]⟩, ?_⟩
  rintro r' ⟨⟨a', b'⟩, c'⟩
  funext j
  by_cases hj : j < m
  · exact tailSwaps_inj m 0 (by omega) (fun j _ h => a' j h) a (by rw [← e, c', c]) j (by omega) hj
  · rw [b j (by omega), b' j (by omega)]

/-- **C88** (finding): three of the six triples of a single conjunction made wrong in the same way.  The cut-and-choose
lets this through exactly if none of them is among the opened ones, and then the result is wrong. -/
theorem c88_cheat {D : AndRand w} (ha : ∀ n, Paired (D.a0 n) (D.a1 n)) (hb : ∀ n, Paired (D.b0 n) (D.b1 n)) {δ : BitVec w}
    (hδ : δ ≠ 0#w) (he : ∀ n, error D n = if n < 3 then δ else 0#w) (x y : Rss (Fin 1 → BitVec w)) {v u : BitVec w}
    (hx : RepB (rssAt x 0) v) (hy : RepB (rssAt y 0) u) :
    if ∀ n < 3, 3 ≤ shuffle 6 (fun j => (D.idx j).toNat) n then
      ∃ z, andPre 1 D x y = some z ∧ RepB (rssAt z 0) ((v &&& u) ^^^ δ)
    else andPre 1 D x y = none := by
  have h := c88_andPre (N := 1) ha hb x y
  simp only [he] at h
  set σ := shuffle (1 * 3 + 3) (fun j => (D.idx j).toNat) with hσ
  have key : ((∀ n < 3, (if σ n < 3 then δ else 0#w) = 0#w) ∧ ∀ j < 1, ((if σ (3 + j * 3) < 3 then δ else 0#w) = if σ (3 + j * 3 + 1) < 3 then δ else 0#w) ∧
      (if σ (3 + j * 3) < 3 then δ else 0#w) = if σ (3 + j * 3 + 2) < 3 then δ else 0#w) ↔ ∀ n < 3, 3 ≤ σ n := by
    constructor
    · intro k n hn
      by_contra c
      have := k.1 n hn
      rw [if_pos (by omega)] at this
      exact hδ this
    · intro k
      have big : ∀ q, 3 ≤ q → q < 6 → σ q < 3 := by
        intro q h3 h6
        have b0 := shuffle_lt 6 (fun j => (D.idx j).toNat) (show 0 < 6 by omega)
        have b1 := shuffle_lt 6 (fun j => (D.idx j).toNat) (show 1 < 6 by omega)
        have b2 := shuffle_lt 6 (fun j => (D.idx j).toNat) (show 2 < 6 by omega)
        have bq := shuffle_lt 6 (fun j => (D.idx j).toNat) h6
        have d : ∀ a b, a ≠ b → σ a ≠ σ b := fun a b hab hc => hab (σ.injective hc)
        have := d 0 1 (by omega)
        have := d 0 2 (by omega)
        have := d 1 2 (by omega)
        have := d 0 q (by omega)
        have := d 1 q (by omega)
        have := d 2 q (by omega)
        have := k 0 (by omega)
        have := k 1 (by omega)
        have := k 2 (by omega)
        rw [show shuffle 6 (fun j => (D.idx j).toNat) = σ from rfl] at b0 b1 b2 bq
        omega
      refine ⟨fun n hn => if_neg (by have := k n hn; omega), fun j hj => ?_⟩
      obtain rfl : j = 0 := by omega
      rw [if_pos (big _ (by omega) (by omega)), if_pos (big _ (by omega) (by omega)), if_pos (big _ (by omega) (by omega))]
      exact ⟨rfl, rfl⟩
  by_cases c : ∀ n < 3, 3 ≤ σ n
  · rw [if_pos c]
    rw [if_pos (key.2 c)] at h
    obtain ⟨z, hz, hr⟩ := h
    refine ⟨z, hz, ?_⟩
    have := hr 0 v u hx hy
    have c3 : σ 3 < 3 := by
      by_contra c3
      have := (key.2 c).2 0 (by omega)
      have e0 := σ.injective.ne (show (0 : ℕ) ≠ 3 by omega)
      have e1 := σ.injective.ne (show (1 : ℕ) ≠ 3 by omega)
      have e2 := σ.injective.ne (show (2 : ℕ) ≠ 3 by omega)
      have f0 := σ.injective.ne (show (0 : ℕ) ≠ 1 by omega)
      have f1 := σ.injective.ne (show (0 : ℕ) ≠ 2 by omega)
      have f2 := σ.injective.ne (show (1 : ℕ) ≠ 2 by omega)
      have b0 : σ 0 < 6 := shuffle_lt 6 _ (by omega)
      have b1 : σ 1 < 6 := shuffle_lt 6 _ (by omega)
      have b2 : σ 2 < 6 := shuffle_lt 6 _ (by omega)
      have b3 : σ 3 < 6 := shuffle_lt 6 _ (by omega)
      have := c 0 (by omega)
      have := c 1 (by omega)
      have := c 2 (by omega)
      omega
    simpa [c3] using this
  · rw [if_neg c]
    rw [if_neg (fun k => c (key.1 k))] at h
    exact h

/-- the draws of six triples, numbered -/
def draws6 (c : ℕ) : ℕ → ℕ
  | 0 => c % 6
  | 1 => c / 6 % 5
  | 2 => c / 30 % 4
  | 3 => c / 120 % 3
  | 4 => c / 360 % 2
  | _ => 0

/-- **C88** (finding): this succeeds for 36 of the 720 equally likely sequences of draws, one in twenty. -/
theorem c88_cheat_odds :
    ((List.range 720).filter fun (c : ℕ) => decide (3 ≤ shuffle 6 (draws6 c) 0 ∧ 3 ≤ shuffle 6 (draws6 c) 1 ∧ 3 ≤ shuffle 6 (draws6 c) 2)).length = 36 := by decide +kernel

theorem rep_at {x : Rss (Fin N → BitVec w)} {v : Fin N → BitVec w} (h : Rep (X := Fin N → BX w) x v) (j : Fin N) :
    RepB (rssAt x j) (v j) := by
  obtain ⟨s0, s1, s2, h0, h1, h2, rfl⟩ := h
  exact ⟨s0 j, s1 j, s2 j, by simp only [rssAt, h0]; rfl, by simp only [rssAt, h1]; rfl, by simp only [rssAt, h2]; rfl, rfl⟩

theorem rep_all {x : Rss (Fin N → BitVec w)} {v : Fin N → BitVec w} (h : ∀ j, RepB (rssAt x j) (v j)) :
    Rep (X := Fin N → BX w) x v := by
  choose s0 s1 s2 h0 h1 h2 hv using h
  refine ⟨s0, s1, s2, ?_, ?_, ?_, funext hv⟩
  · exact Prod.ext (funext fun j => congrArg Prod.fst (h0 j)) (funext fun j => congrArg Prod.snd (h0 j))
  · exact Prod.ext (funext fun j => congrArg Prod.fst (h1 j)) (funext fun j => congrArg Prod.snd (h1 j))
  · exact Prod.ext (funext fun j => congrArg Prod.fst (h2 j)) (funext fun j => congrArg Prod.snd (h2 j))

/-- conjunction of arrays -/
def bandN (a b : Fin N → BX w) : Fin N → BX w := fun n => band (a n) (b n)

theorem bandN_bilin : Bilin (bandN (w := w) (N := N)) :=
  ⟨fun a b y => funext fun n => band_bilin.addL (a n) (b n) (y n), fun x a b => funext fun n => band_bilin.addR (x n) (a n) (b n)⟩

theorem andBB_eq (H : HashFn) (D : AndRand w) (x y : Fin 3 → Shr (Fin N → BitVec w)) (r0 r1 : Fin 3 → Fin N → BitVec w)
    (u : Fin N → BitVec w) : andBB H N D x y r0 r1 u =
      mulWith (X := Fin N → BX w) (Y := Fin N → BX w) (Z := Fin N → BX w) H bandN (andPre N D) x y r0 r1 u := by
  have c0 : ∀ n, (y 0).c n &&& (x 0).a n = (x 0).a n &&& (y 0).c n := fun n => BitVec.and_comm _ _
  have c1 : ∀ n, ((y 1).b n ^^^ (y 1).c n) &&& (x 1).a n = (x 1).a n &&& ((y 1).b n ^^^ (y 1).c n) := fun n => BitVec.and_comm _ _
  have c2 : ∀ n, (y 0).c n &&& (x 0).b n = (x 0).b n &&& (y 0).c n := fun n => BitVec.and_comm _ _
  have c3 : ∀ n, ((y 2).b n ^^^ (y 2).c n) &&& (x 2).a n = (x 2).a n &&& ((y 2).b n ^^^ (y 2).c n) := fun n => BitVec.and_comm _ _
  unfold andBB
  simp only [c0, c1, c2, c3]
  rfl

/-- **C88**: `AndBB` of arrays of any length: the result is a sharing of the conjunction whose masks are the fresh draws; no
triple is rejected and nothing is reported. -/
theorem c88_andBB (H : HashFn) {D : AndRand w} (hD : AndOk D) {x y : Fin 3 → Shr (Fin N → BitVec w)} {v u : Fin N → BitVec w}
    (hx : ∀ n, BShares (elem x n) (v n)) (hy : ∀ n, BShares (elem y n) (u n)) {r0 r1 : Fin 3 → Fin N → BitVec w} (hr : Paired r0 r1)
    (un : Fin N → BitVec w) (al : Bool) :
    ∃ z, (andBB H N D x y r0 r1 un).run al = some (z, al) ∧
      ∀ n, BLayout (elem z n) (r0 1 n) (r0 0 n) ((v n &&& u n) ^^^ r0 1 n ^^^ r0 0 n) (r0 2 n) := by
  have hs : ∀ {x : Fin 3 → Shr (Fin N → BitVec w)} {v : Fin N → BitVec w}, (∀ n, BShares (elem x n) (v n)) →
      Shares (R := Fin N → BX w) x v := by
    intro x v h
    choose a1 a2 be ga l e using h
    refine ⟨a1, a2, be, ga, ⟨?_, ?_, ?_⟩, funext e⟩
    · exact Shr.ext (funext fun n => congrArg Shr.a (l n).p0) (funext fun n => congrArg Shr.b (l n).p0)
        (funext fun n => congrArg Shr.c (l n).p0)
    · exact Shr.ext (funext fun n => congrArg Shr.a (l n).p1) (funext fun n => congrArg Shr.b (l n).p1)
        (funext fun n => congrArg Shr.c (l n).p1)
    · exact Shr.ext (funext fun n => congrArg Shr.a (l n).p2) (funext fun n => congrArg Shr.b (l n).p2)
        (funext fun n => congrArg Shr.c (l n).p2)
  rw [andBB_eq]
  obtain ⟨z, hz, lz⟩ := mulWith_ok (X := Fin N → BX w) (Y := Fin N → BX w) (Z := Fin N → BX w) H bandN_bilin (pre := andPre N D)
    (fun d e p q hd he => by
      have h := andPre_any N hD.a hD.b d e
      simp only [error_paired hD] at h
      rw [if_pos (by simp)] at h
      obtain ⟨z, hz, h⟩ := h
      refine ⟨z, hz, rep_all fun j => ?_⟩
      have := h j _ _ (rep_at hd j) (rep_at he j)
      rw [BitVec.xor_zero] at this
      exact this)
    (hs hx) (hs hy) hr un al
  refine ⟨z, hz, fun n => ⟨?_, ?_, ?_⟩⟩
  · simp only [elem, lz.p0]; rfl
  · simp only [elem, lz.p1]; rfl
  · simp only [elem, lz.p2]; rfl

/-- draws for the examples: everything honest -/
def andEx : AndRand 8 where
  a0 n := ![BitVec.ofNat 8 (n * 7 + 1), BitVec.ofNat 8 (n * 11 + 2), 3]
  a1 n := ![BitVec.ofNat 8 (n * 11 + 2), 3, BitVec.ofNat 8 (n * 7 + 1)]
  b0 n := ![BitVec.ofNat 8 (n * 3 + 99), 255, BitVec.ofNat 8 (n * n)]
  b1 n := ![255, BitVec.ofNat 8 (n * n), BitVec.ofNat 8 (n * 3 + 99)]
  c0 n := ![BitVec.ofNat 8 (n * 5), 77, BitVec.ofNat 8 (n + 200)]
  c1 n := ![77, BitVec.ofNat 8 (n + 200), BitVec.ofNat 8 (n * 5)]
  idx n := BitVec.ofNat 8 (n * 37 + 5)

theorem andEx_ok : AndOk andEx := ⟨fun n i => by fin_cases i <;> rfl, fun n i => by fin_cases i <;> rfl, fun n i => by fin_cases i <;> rfl⟩

example : AndOk andEx ∧ (do
    let z ← andBB (fun _ _ => 0) 2 andEx
      ![⟨![1, 2], ![3, 4], ![5 ^^^ 7, 6 ^^^ 8]⟩, ⟨![1, 2], ![5, 6], ![7, 8]⟩, ⟨![3, 4], ![5, 6], ![7, 8]⟩]
      ![⟨![9, 0], ![70, 0], ![12 ^^^ 5, 0xf0 ^^^ 9]⟩, ⟨![9, 0], ![12, 0xf0], ![5, 9]⟩, ⟨![70, 0], ![12, 0xf0], ![5, 9]⟩]
      ![![1, 2], ![3, 4], ![5, 6]] ![![3, 4], ![5, 6], ![1, 2]] ![0, 0]
    let p ← b2p (fun _ _ => 0) (elem z 0) 0
    let q ← b2p (fun _ _ => 0) (elem z 1) 0
    return ([p 0, p 1, p 2], [q 0, q 1, q 2]) : Spu.Model.Swift.M (List (BitVec 8) × List (BitVec 8))).run false =
      some (([3, 3, 3], [0, 0, 0]), false) ∧ (5 ^^^ 1 ^^^ 3 : BitVec 8) &&& (12 ^^^ 9 ^^^ 70) = 3 := ⟨andEx_ok, by decide +kernel⟩

/-- the same, with `0xff` added to the third value of the first three triples -/
def andBad (i0 i1 i2 : BitVec 8) : AndRand 8 :=
  { andEx with
    c0 := fun n => ![if n < 3 then BitVec.ofNat 8 (n * 5) ^^^ 0xff else BitVec.ofNat 8 (n * 5), 77, BitVec.ofNat 8 (n + 200)]
    idx := fun n => if n = 0 then i0 else if n = 1 then i1 else if n = 2 then i2 else 0 }

example : (andPre 1 (andBad 3 3 3) (fun i => ![(fun _ => 1, fun _ => 2), (fun _ => 2, fun _ => 4), (fun _ => 4, fun _ => 1)] i)
      (fun i => ![(fun _ => 7, fun _ => 0), (fun _ => 0, fun _ => 8), (fun _ => 8, fun _ => 7)] i)).map (fun z => rssOpenB (rssAt z 0) 0) = some (0xff ^^^ 7) ∧
    (andPre 1 (andBad 3 3 0) (fun i => ![(fun _ => 1, fun _ => 2), (fun _ => 2, fun _ => 4), (fun _ => 4, fun _ => 1)] i)
      (fun i => ![(fun _ => 7, fun _ => 0), (fun _ => 0, fun _ => 8), (fun _ => 8, fun _ => 7)] i)).isNone = true ∧
    error (andBad 3 3 3) 1 = 0xff ∧ error (andBad 3 3 3) 4 = 0 := by decide +kernel

end And

/-! ## Circuits and conversions -/

theorem bshares_of_layout {x : Fin 3 → Shr (BitVec w)} {v a b c : BitVec w} (h : BLayout x a b (v ^^^ a ^^^ b) c) : BShares x v :=
  ⟨a, b, _, c, h, by
    rw [show v ^^^ a ^^^ b ^^^ a ^^^ b = v ^^^ (a ^^^ a) ^^^ (b ^^^ b) by ac_rfl, BitVec.xor_self, BitVec.xor_self, BitVec.xor_zero,
      BitVec.xor_zero]⟩

/-- every `AndBB` of a circuit draws consistently -/
def EnvB (E : ℕ → AndIn w) : Prop := ∀ n, AndOk (E n).D ∧ Paired (E n).r0 (E n).r1

theorem ok_liftW {σ α : Type} {Inv : σ → Prop} {o : Option α} {P : α → Prop} (h : ∃ a, o = some a ∧ P a) :
    Ok Inv (StateT.lift o : Spu.Model.Circ.M σ α) P := by
  obtain ⟨a, rfl, hP⟩ := h
  exact fun s hs => ⟨a, s, rfl, hs, hP⟩

/-- **C88**: SWIFT's boolean kernels are correct gates, and none of them reports anything. -/
theorem c88_sound (H : HashFn) {E : ℕ → AndIn w} (hE : EnvB E) {M : ℕ} (hwM : w = 2 ^ M) (h128 : w ≤ 128) (al : Bool) :
    Sound (gatesW H E) (fun s => s.2 = al) HoldsB where
  nb_le h := h.2.2
  lt h := h.2.1
  xor ha hb := Ok.pure (c88_xorBB ha hb)
  and {a b x y} ha hb := by
    rintro ⟨n, al'⟩ rfl
    obtain ⟨z, hz, lz⟩ := c88_andBB (N := 1) H (hE n).1 (x := up a.sh) (y := up b.sh) (v := fun _ => x) (u := fun _ => y)
      (fun _ => ha.1) (fun _ => hb.1) (hE n).2 (fun _ => (E n).u) al'
    refine ⟨⟨min a.nb b.nb, down z⟩, (n + 1, al'), ?_, rfl, ⟨⟨?_, and_lt ha.2.1 hb.2.1, le_trans (min_le_left _ _) ha.2.2⟩, rfl⟩⟩
    · show andG H E a b (n, al') = _
      unfold andG
      simp only [hz]
      rfl
    · exact bshares_of_layout (lz 0)
  andP p ha := Ok.pure (c88_andBP ha p)
  shl ha hk _ := ok_liftW (c88_lshiftB ha hk)
  shr ha hk _ := ok_liftW (c88_rshiftB ha hk)
  deintl ha hn hr := ok_liftW (c88_bitdeintlB hwM h128 ha hn hr)
  intl ha hn hr := ok_liftW (c88_bitintlB hwM h128 ha hn hr)

/-- **C88**: `A2B` turns a sharing of a ring element into a boolean sharing of it. -/
theorem c88_a2b (H : HashFn) {E : ℕ → AndIn w} (hE : EnvB E) {M : ℕ} (hwM : w = 2 ^ M) (h1 : 1 < w) (h128 : w ≤ 128)
    {x : Fin 3 → Shr (BitVec w)} {v : BitVec w} (h : Shares x v) (al : Bool) :
    Ok (fun s => s.2 = al) (a2b H E x) (fun c => HoldsB c v ∧ c.nb = w) := by
  obtain ⟨a1, a2, be, ga, l, rfl⟩ := h
  have S := c88_sound H hE hwM h128 al
  refine Ok.bind (c15_add_bb S h1 (x := be) (y := -a1) ⟨⟨0, 0, be, be, ⟨?_, ?_, ?_⟩, ?_⟩, be.isLt, le_rfl⟩
    ⟨⟨-a1, 0, 0, 0, ⟨?_, ?_, ?_⟩, ?_⟩, (-a1).isLt, le_rfl⟩ rfl) fun c ⟨hc, nc⟩ => ?_
  · simp
  · simp [l.p1]
  · simp [l.p2]
  · simp
  · simp [l.p0]
  · simp [l.p1]
  · simp
  · simp
  have nw : c.nb = w := by
    have : c.nb = min (w + 1) w := nc
    omega
  refine Ok.bind (c15_add_bb S h1 (x := be + -a1) (y := -a2) hc ⟨⟨0, -a2, 0, 0, ⟨?_, ?_, ?_⟩, ?_⟩, (-a2).isLt, le_rfl⟩ nw)
    fun d ⟨hd, nd⟩ => ?_
  · simp [l.p0]
  · simp
  · simp [l.p2]
  · simp
  refine Ok.pure ⟨⟨?_, BitVec.isLt _, le_rfl⟩, rfl⟩
  have := hd.1
  rwa [← sub_eq_add_neg, ← sub_eq_add_neg] at this

/-- **C88**: `MsbA2B` gives the sign bit; the type of the result says that all bits are in use, which is true of
any word. -/
theorem c88_msb (H : HashFn) {E : ℕ → AndIn w} (hE : EnvB E) {M : ℕ} (hwM : w = 2 ^ M) (h1 : 1 < w) (h128 : w ≤ 128)
    {x : Fin 3 → Shr (BitVec w)} {v : BitVec w} (h : Shares x v) (al : Bool) :
    Ok (fun s => s.2 = al) (msbA2B H E x) (fun c => HoldsB c (BitVec.ofNat w v.msb.toNat) ∧ c.nb = w) := by
  refine Ok.bind (c88_a2b H hE hwM h1 h128 h al) fun b ⟨hb, nb⟩ => ?_
  refine Ok.bind (ok_liftW (c88_rshiftB hb (s := w - 1) (by omega))) fun c hcc => ?_
  obtain ⟨hc, -⟩ := hcc
  refine Ok.pure ⟨⟨?_, BitVec.isLt _, le_rfl⟩, rfl⟩
  have e : v >>> (w - 1) = BitVec.ofNat w v.msb.toNat := by
    rw [BitVec.msb_eq_getLsbD_last]
    have h1 := bitW_eq v (w - 1)
    unfold bitW at h1
    rw [← h1]
    refine BitVec.eq_of_getLsbD_eq fun i hi => ?_
    rw [BitVec.getLsbD_and, BitVec.getLsbD_ushiftRight, one_bit]
    by_cases h0 : i = 0
    · subst h0; simp [show 0 < w by omega]
    · rw [BitVec.getLsbD_of_ge v _ (by omega)]; rfl
  rw [← e]
  exact hc.1

/-- draws for the examples -/
def envEx : ℕ → AndIn 8 := fun n => ⟨andEx, ![fun _ => 1, fun _ => BitVec.ofNat 8 n, fun _ => 3],
  ![fun _ => BitVec.ofNat 8 n, fun _ => 3, fun _ => 1], 0⟩

theorem envEx_ok : EnvB envEx := fun n => ⟨andEx_ok, fun i => by fin_cases i <;> rfl⟩

example : EnvB envEx ∧ Shares (toShares (0x93#8) 1 2 3) 0x93 ∧
    ((a2b (fun _ _ => 0) envEx (toShares (0x93#8) 1 2 3)).run (0, false)).map
      (fun z => ((z.1.sh 1).b ^^^ (z.1.sh 0).a ^^^ (z.1.sh 0).b, z.1.nb, z.2.2)) = some (0x93, 8, false) ∧
    ((msbA2B (fun _ _ => 0) envEx (toShares (0x93#8) 1 2 3)).run (0, false)).map
      (fun z => ((z.1.sh 1).b ^^^ (z.1.sh 0).a ^^^ (z.1.sh 0).b, z.1.nb)) = some (1, 8) :=
  ⟨envEx_ok, (c87_io _ _ _ _).1, by decide +kernel, by decide +kernel⟩

/-- the draws of one product -/
def MulInOk (m : MulIn w) : Prop := PreOk m.D ∧ Paired m.r0 m.r1

theorem shares_sub2 {x y t : Fin 3 → Shr (BitVec w)} {p q r : BitVec w} (hx : Shares x p) (hy : Shares y q) (ht : Shares t r) :
    Shares (addAA (addAA (addAA x y) (negateA t)) (negateA t)) (p + q - 2 * r) := by
  have := c87_addAA (c87_addAA (c87_addAA hx hy) (c87_negateA ht)) (c87_negateA ht)
  rwa [show p + q + -r + -r = p + q - 2 * r by ring] at this

theorem bit2A_ok (hw : w = 32 ∨ w = 64) (H : HashFn) {B : BitIn w} (h1 : MulInOk B.m1) (h2 : MulInOk B.m2)
    {x : Fin 3 → Shr (BitVec w)} {v : BitVec w} (h : BShares x v) (q : ℕ) (u : BitVec w) (al : Bool) :
    ∃ z, (bit2A H B x q u).run al = some (z, al) ∧ Shares z (bitW v q) := by
  obtain ⟨a1, a2, be, ga, l, rfl⟩ := h
  have m0 : ∀ i, mapS (fun v => (v >>> q) &&& 1) x i = ⟨bitW (x i).a q, bitW (x i).b q, bitW (x i).c q⟩ := fun i => by
    simp only [mapS, bitW_eq]
  obtain ⟨s1, e1, k1⟩ := c87_jointSharing (i := 0) (j := 1) (by decide)
    (msg := al1Of (mapS (fun v => (v >>> q) &&& 1) x) u) (v := bitW a1 q) ((congrArg Shr.a (m0 0)).trans (by rw [l.p0])) ((congrArg Shr.a (m0 1)).trans (by rw [l.p1])) B.j1
  obtain ⟨s2, e2, k2⟩ := c87_jointSharing (i := 0) (j := 2) (by decide)
    (msg := al2Of (mapS (fun v => (v >>> q) &&& 1) x) u) (v := bitW a2 q) ((congrArg Shr.b (m0 0)).trans (by rw [l.p0])) ((congrArg Shr.a (m0 2)).trans (by rw [l.p2])) B.j2
  obtain ⟨s3, e3, k3⟩ := c87_jointSharing (i := 1) (j := 2) (by decide)
    (msg := beOf (mapS (fun v => (v >>> q) &&& 1) x) u) (v := bitW be q) ((congrArg Shr.b (m0 1)).trans (by rw [l.p1])) ((congrArg Shr.b (m0 2)).trans (by rw [l.p2])) B.j3
  obtain ⟨t1, f1, g1, -⟩ := c87_mulAA hw H B.m1.ch h1.1 k1 k2 h1.2 u al
  have ka := shares_sub2 k1 k2 g1
  rw [bitW_xor] at ka
  obtain ⟨t2, f2, g2, -⟩ := c87_mulAA hw H B.m2.ch h2.1 k3 ka h2.2 u al
  have kb := shares_sub2 ka k3 g2
  rw [mul_comm (bitW be q), bitW_xor, BitVec.xor_comm _ be, ← BitVec.xor_assoc] at kb
  refine ⟨_, ?_, kb⟩
  have l1 : (StateT.lift (some s1) : Spu.Model.Swift.M _) = pure s1 := rfl
  have l2 : (StateT.lift (some s2) : Spu.Model.Swift.M _) = pure s2 := rfl
  have l3 : (StateT.lift (some s3) : Spu.Model.Swift.M _) = pure s3 := rfl
  unfold bit2A
  simp only [e1, e2, e3, l1, l2, l3, pure_bind, StateT.run_bind, f1, Option.bind_eq_bind, Option.bind_some, f2]
  rfl

/-- **C88**: `B2A` turns a boolean sharing of a word into a sharing of the same ring element, in the two fields whose
products exist. -/
theorem c88_b2a (hw : w = 32 ∨ w = 64) (H : HashFn) {B : ℕ → BitIn w} (hB : ∀ q, MulInOk (B q).m1 ∧ MulInOk (B q).m2) {x : BSh w}
    {v : BitVec w} (h : HoldsB x v) (u : BitVec w) (al : Bool) : ∃ z, (b2a H B x u).run al = some (z, al) ∧ Shares z v := by
  have zero : Shares (R := BitVec w) (fun _ => ⟨0, 0, 0⟩) 0 := ⟨0, 0, 0, 0, ⟨by simp, by simp, by simp⟩, by simp⟩
  unfold b2a
  rw [if_pos h.2.2]
  by_cases h0 : x.nb = 0
  · rw [if_pos h0]
    have : v = 0 := by
      have := h.2.1
      rw [h0] at this
      apply BitVec.eq_of_toNat_eq
      simpa using this
    rw [this]
    exact ⟨_, rfl, zero⟩
  · rw [if_neg h0]
    have key : ∀ n, ∃ z, ((List.range n).foldlM (fun acc q => do
        let z ← bit2A H (B q) x.sh q u
        return addAA acc (mapS (· <<< q) z)) (fun _ => ⟨0, 0, 0⟩) : Spu.Model.Swift.M (Fin 3 → Shr (BitVec w))).run al =
        some (z, al) ∧ Shares z (∑ q ∈ Finset.range n, 1#w <<< q * bitW v q) := by
      intro n
      induction n with
      | zero => exact ⟨_, rfl, zero⟩
      | succ n ih =>
        obtain ⟨z, e, s⟩ := ih
        obtain ⟨y, f, t⟩ := bit2A_ok hw H (hB n).1 (hB n).2 h.1 n u al
        rw [List.range_succ, List.foldlM_append, StateT.run_bind, e]
        simp only [List.foldlM_cons, List.foldlM_nil, bind_pure, Option.bind_eq_bind, Option.bind_some, StateT.run_bind, f]
        refine ⟨_, rfl, ?_⟩
        rw [Finset.sum_range_succ]
        refine c87_addAA s ?_
        have := shares_scale t (1#w <<< n)
        refine (congrArg (fun f => Shares f _) ?_).mp this
        funext i
        simp only [scale, mapS]
        have : ∀ a : BitVec w, 1#w <<< n * a = a <<< n := fun a => by
          rw [shiftLeft_eq_mul, shiftLeft_eq_mul (x := a), show (1#w) = 1 from rfl]; ring
        simp only [this]
    obtain ⟨z, e, s⟩ := key x.nb
    rw [sum_bitW, Nat.mod_eq_of_lt h.2.1, BitVec.ofNat_toNat, BitVec.setWidth_eq] at s
    exact ⟨z, e, s⟩

/-- **C88** (finding): nothing of this works for FM128: a non-empty word cannot be converted. -/
theorem c88_b2a_field (hw : w ≠ 32 ∧ w ≠ 64) (H : HashFn) (B : ℕ → BitIn w) (x : BSh w) (h0 : x.nb ≠ 0) (u : BitVec w) (al : Bool) :
    (b2a H B x u).run al = none := by
  unfold b2a
  by_cases hn : x.nb ≤ w
  · rw [if_pos hn, if_neg h0]
    obtain ⟨n, hn⟩ := Nat.exists_eq_succ_of_ne_zero h0
    have : (bit2A H (B 0) x.sh 0 u).run al = none := by
      unfold bit2A
      have l : ∀ {α β : Type} (o : Option α) (f : α → Spu.Model.Swift.M β), (∀ a, (f a).run al = none) →
          (StateT.lift o >>= f : Spu.Model.Swift.M β).run al = none := by
        intro α β o f hf
        cases o with
        | none => rfl
        | some a => exact hf a
      refine l _ _ fun a => l _ _ fun b => l _ _ fun c => ?_
      rw [StateT.run_bind, c87_mulAA_field hw]
      rfl
    rw [hn, List.range_succ_eq_map, List.foldlM_cons, StateT.run_bind, StateT.run_bind, this]
    rfl
  · rw [if_neg hn]
    rfl

/-- draws for the example -/
def bitEx : ℕ → BitIn 32 := fun q => ⟨BitVec.ofNat 32 q, 5, 6, ⟨77, preEx, ![21, 22, 23], ![22, 23, 21]⟩, ⟨78, preEx, ![1, 2, 3], ![2, 3, 1]⟩⟩

theorem bitEx_ok (q : ℕ) : MulInOk (bitEx q).m1 ∧ MulInOk (bitEx q).m2 :=
  ⟨⟨preEx_ok, fun i => by fin_cases i <;> rfl⟩, ⟨preEx_ok, fun i => by fin_cases i <;> rfl⟩⟩

example : HoldsB (p2b (1234#32)) 1234 ∧ ((b2a (fun _ _ => 0) bitEx (p2b (1234#32)) 0).run false).map (fun z => (fromShares z.1, z.2)) =
    some (1234, false) := by
  refine ⟨(c88_p2b _).1, ?_⟩
  obtain ⟨z, e, s⟩ := c88_b2a (Or.inl rfl) (fun _ _ => 0) bitEx_ok (c88_p2b (1234#32)).1 0 false
  rw [e, Option.map_some, c87_fromShares s]
  rfl

example : ((b2a (fun _ _ => 0) bitEx ⟨3, ![⟨1, 2, 5 ^^^ 9⟩, ⟨1, 5, 9⟩, ⟨2, 5, 9⟩]⟩ 0).run false).map (fun z => (fromShares z.1, z.2)) =
    some (6, false) := by decide +kernel

example : ∃ c, rshiftB (xorBP (p2b (0xa5#8)) 0xff) 2 = some c ∧ HoldsB c (0x5a >>> 2) ∧ c.nb = 6 :=
  c88_rshiftB (c88_xorBP (c88_p2b (0xa5#8)).1 0xff).1 (by decide)

end Spu.Props.Swift

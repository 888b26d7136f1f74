import Verif.Lemmas.CheetahDot

set_option autoImplicit false

/-!
Lemmas for C78: packing of polynomials.
-/

namespace Spu.Model.Cdot
open Spu.Spec.Nega Spu.Model.Cmul

variable {A : Type} [CommRing A]

/-! ## Substitutions -/

theorem galois_at {N g : ℕ} (hg : Nat.Coprime N g) (a : ℕ → A) {i : ℕ} (hi : i < N) :
    galois N g a (i * g % N) = if i * g / N % 2 = 1 then -a i else a i := by
  unfold galois
  rw [Finset.sum_eq_single i]
  · rw [if_pos rfl]
  · intro j hj hne
    rw [if_neg]
    intro e
    have : j ≡ i [MOD N] := Nat.ModEq.cancel_right_of_coprime (c := g) hg e
    exact hne (this.eq_of_lt_of_lt (Finset.mem_range.1 hj) hi)
  · intro h
    exact absurd (Finset.mem_range.2 hi) h

theorem coprime_pow_succ (n T : ℕ) (hT : 2 ∣ T) : Nat.Coprime (2 ^ n) (T + 1) := by
  refine Nat.Coprime.pow_left _ ?_
  rw [Nat.coprime_two_left, Nat.odd_iff]
  omega

/-- the substitution of `X^(T+1)` at a multiple of `h = N / T` -/
theorem galois_mult {n h T t : ℕ} (hN : h * T = 2 ^ n) (hT : 2 ∣ T) (ht : h * t < 2 ^ n) (a : ℕ → A) :
    galois (2 ^ n) (T + 1) a (h * t) = if t % 2 = 1 then -a (h * t) else a (h * t) := by
  have e : h * t * (T + 1) = h * t + 2 ^ n * t := by rw [← hN]; ring
  have e1 : h * t * (T + 1) % 2 ^ n = h * t := by rw [e, Nat.add_mul_mod_self_left, Nat.mod_eq_of_lt ht]
  have e2 : h * t * (T + 1) / 2 ^ n = t := by
    rw [e, Nat.add_mul_div_left _ _ (by positivity), Nat.div_eq_of_lt ht, zero_add]
  have := galois_at (coprime_pow_succ n T hT) a ht
  rw [e1, e2] at this
  exact this

/-- the value of a ciphertext, the empty one is zero -/
def valOf (o : Option (ℕ → A)) (k : ℕ) : A := (o.getD fun _ => 0) k

theorem merge_at {n h T t : ℕ} (hN : h * T = 2 ^ n) (hT : 2 ∣ T) (ht : h * t < 2 ^ n) (e o : Option (ℕ → A)) :
    valOf (merge (2 ^ n) h (T + 1) e o) (h * t) =
      if t % 2 = 1 then 2 * valOf o (h * (t - 1)) else 2 * valOf e (h * t) := by
  have sh : t % 2 = 1 → ∀ p : ℕ → A, shiftRight (2 ^ n) h p (h * t) = p (h * (t - 1)) := by
    intro h1 p
    obtain ⟨u, rfl⟩ : ∃ u, t = u + 1 := ⟨t - 1, by omega⟩
    unfold shiftRight
    rw [Nat.mul_add, mul_one, if_neg (by omega)]
    simp
  cases e <;> cases o
  · simp [merge, valOf]
  · rename_i o
    simp only [merge, valOf, Option.getD_some, Option.getD_none, galois_mult hN hT ht]
    split_ifs with h1
    · rw [sh h1]; ring
    · ring
  · simp only [merge, valOf, Option.getD_some, Option.getD_none, galois_mult hN hT ht]
    split_ifs with h1 <;> ring
  · rename_i e o
    simp only [merge, valOf, Option.getD_some, galois_mult hN hT ht]
    split_ifs with h1
    · rw [sh h1]; ring
    · ring

theorem merge_isSome {N s g : ℕ} {e o : Option (ℕ → A)} (h : e.isSome) : (merge N s g e o).isSome := by
  cases e <;> cases o <;> simp_all [merge]

/-! ## Interleaving -/

theorem packLevels_isSome (N : ℕ) (k : ℕ) (cts : ℕ → Option (ℕ → A)) (h : (cts 0).isSome) : (packLevels N k cts 0).isSome := by
  induction k generalizing cts with
  | zero => exact h
  | succ k ih =>
    rw [packLevels]
    apply ih
    rw [if_pos (by positivity)]
    exact merge_isSome h

theorem packLevels_at {n : ℕ} (k : ℕ) (hk : k ≤ n) (cts : ℕ → Option (ℕ → A)) {m : ℕ} (hm : m < 2 ^ n) :
    valOf (packLevels (2 ^ n) k cts 0) m = 2 ^ k * valOf (cts (m % 2 ^ k)) (m - m % 2 ^ k) := by
  induction k generalizing cts m with
  | zero => simp [packLevels, Nat.mod_one]
  | succ k ih =>
    rw [packLevels, ih (by omega) _ hm, if_pos (Nat.mod_lt _ (by positivity))]
    have eN : 2 ^ k * 2 ^ (n - k) = 2 ^ n := by rw [← pow_add]; congr 1; omega
    have eT : 2 ^ n / 2 ^ k = 2 ^ (n - k) := by rw [← eN, Nat.mul_div_cancel_left _ (by positivity)]
    have e1 : m - m % 2 ^ k = 2 ^ k * (m / 2 ^ k) := by have := Nat.div_add_mod m (2 ^ k); omega
    have e2 : m % 2 ^ (k + 1) = m % 2 ^ k + 2 ^ k * (m / 2 ^ k % 2) := by rw [pow_succ, Nat.mod_mul]
    have e3 : 2 ^ k * (m / 2 ^ k) < 2 ^ n := lt_of_le_of_lt (Nat.mul_div_le m (2 ^ k)) hm
    rw [e1, eT, merge_at eN (dvd_pow_self _ (by omega)) e3, e2]
    have hd := Nat.div_add_mod m (2 ^ k)
    split_ifs with h1
    · obtain ⟨u, hu⟩ : ∃ u, m / 2 ^ k = u + 1 := Nat.exists_eq_succ_of_ne_zero fun e => by rw [e] at h1; simp at h1
      rw [h1, mul_one]
      have : 2 ^ k * (m / 2 ^ k - 1) = m - (m % 2 ^ k + 2 ^ k) := by
        rw [hu] at hd ⊢
        rw [Nat.mul_add, mul_one] at hd
        simp only [Nat.add_sub_cancel]
        omega
      rw [this]
      ring
    · have h0 : m / 2 ^ k % 2 = 0 := by omega
      rw [h0, mul_zero, add_zero, ← e1]
      ring

theorem packRLWEs_spec {n l num : ℕ} (hl : l ≤ n) (h0 : 0 < num) (h1 : num ≤ 2 ^ l) {inv : A} (hinv : 2 ^ l * inv = 1)
    (cts : ℕ → ℕ → A) : ∃ p, packRLWEs (2 ^ n) l num inv cts = some p ∧
      ∀ m, m < 2 ^ n → p m = if m % 2 ^ l < num then cts (m % 2 ^ l) (m - m % 2 ^ l) else 0 := by
  unfold packRLWEs
  rw [if_pos ⟨h0, h1⟩]
  obtain ⟨p, hp⟩ := Option.isSome_iff_exists.1 (packLevels_isSome (2 ^ n) l
    (fun i => if i < num then some (fun k => inv * cts i k) else none) (by simp [h0]))
  refine ⟨p, hp, fun m hm => ?_⟩
  have := packLevels_at l hl (fun i => if i < num then some (fun k => inv * cts i k) else none) hm
  rw [hp] at this
  rw [show p m = valOf (some p) m from rfl, this]
  split_ifs with h
  · simp only [valOf, Option.getD_some]
    rw [← mul_assoc, hinv, one_mul]
  · simp [valOf]

theorem packAll_spec {n l outN : ℕ} (hl : l ≤ n) {inv : A} (hinv : 2 ^ l * inv = 1) (cts : ℕ → ℕ → A) :
    ∃ out, packAll (2 ^ n) l outN inv cts = some out ∧ ∀ p, p < outN → ∀ off, off * 2 ^ l < 2 ^ n →
      out (p / 2 ^ l) (off * 2 ^ l + p % 2 ^ l) = cts p (off * 2 ^ l) := by
  have hpos : 0 < 2 ^ l := by positivity
  have key : ∀ G, G ≤ cdiv outN (2 ^ l) → ∃ out,
      (List.range G).foldlM (fun ct g => do
        let p ← packRLWEs (2 ^ n) l (min (outN - g * 2 ^ l) (2 ^ l)) inv fun i => ct (g * 2 ^ l + i)
        return Function.update ct g p) cts = some out ∧
      (∀ j, G ≤ j → out j = cts j) ∧ ∀ p, p < outN → p / 2 ^ l < G → ∀ off, off * 2 ^ l < 2 ^ n →
        out (p / 2 ^ l) (off * 2 ^ l + p % 2 ^ l) = cts p (off * 2 ^ l) := by
    intro G
    induction G with
    | zero => exact fun _ => ⟨cts, rfl, fun _ _ => rfl, fun p _ h => absurd h (Nat.not_lt_zero _)⟩
    | succ G ih =>
      intro hG
      obtain ⟨out, e, h1, h2⟩ := ih (by omega)
      have hlt := (lt_cdiv hpos).1 (show G < cdiv outN (2 ^ l) by omega)
      obtain ⟨q, eq, hq⟩ := packRLWEs_spec (num := min (outN - G * 2 ^ l) (2 ^ l)) hl (by omega) (min_le_right _ _) hinv
        (fun i => out (G * 2 ^ l + i))
      refine ⟨Function.update out G q, ?_, fun j hj => ?_, fun p hp hpG off hoff => ?_⟩
      · rw [List.range_succ, List.foldlM_append, e]
        simp [eq]
      · rw [Function.update_of_ne (by omega), h1 j (by omega)]
      · by_cases hpe : p / 2 ^ l = G
        · have hmod := Nat.mod_lt p hpos
          have hdm := Nat.div_add_mod' p (2 ^ l)
          have hb : off * 2 ^ l + p % 2 ^ l < 2 ^ n := by
            have e1 : 2 ^ (n - l) * 2 ^ l = 2 ^ n := by rw [← pow_add]; congr 1; omega
            rw [← e1] at hoff ⊢
            have : off < 2 ^ (n - l) := Nat.lt_of_mul_lt_mul_right hoff
            have := Nat.mul_le_mul_right (2 ^ l) this
            rw [Nat.succ_mul] at this
            omega
          rw [hpe, Function.update_self, hq _ hb]
          have e2 : (off * 2 ^ l + p % 2 ^ l) % 2 ^ l = p % 2 ^ l := (jobDM hmod).2
          rw [e2]
          rw [hpe] at hdm
          rw [if_pos (by omega), Nat.add_sub_cancel, hdm]
          refine congrFun (h1 p ?_) _
          rw [← hpe]
          exact Nat.div_le_self _ _
        · rw [Function.update_of_ne hpe]
          exact h2 p hp (by omega) off hoff
  obtain ⟨out, e, -, h⟩ := key _ le_rfl
  exact ⟨out, e, fun p hp => h p hp (div_lt_cdiv hpos hp)⟩

/-! ## Extraction of a coefficient -/

theorem negMul_coeff {N k : ℕ} (hk : k < N) (a b : ℕ → A) :
    negMul N a b k = ∑ j ∈ Finset.range N, (if j ≤ k then a (k - j) else -a (k + N - j)) * b j := by
  unfold negMul
  rw [Finset.sum_comm]
  refine Finset.sum_congr rfl fun j hj => ?_
  have hj := Finset.mem_range.1 hj
  split_ifs with h
  · rw [Finset.sum_eq_single (k - j)]
    · rw [if_pos (by omega)]
    · intro i hi hne
      have := Finset.mem_range.1 hi
      rw [if_neg (by omega), if_neg (by omega)]
    · intro hn
      exact absurd (Finset.mem_range.2 (by omega)) hn
  · rw [Finset.sum_eq_single (k + N - j)]
    · rw [if_neg (by omega), if_pos (by omega)]; ring
    · intro i hi hne
      have := Finset.mem_range.1 hi
      rw [if_neg (by omega), if_neg (by omega)]
    · intro hn
      exact absurd (Finset.mem_range.2 (by omega)) hn

theorem castLWE_spec {N idx : ℕ} (hi : idx < N) (inv : A) (ct : (ℕ → A) × (ℕ → A)) (s : ℕ → A) :
    phase N s (castLWE N inv ct idx) 0 = inv * phase N s ct idx := by
  unfold phase castLWE
  dsimp only
  rw [negMul_coeff (by omega), negMul_coeff hi, if_pos rfl, mul_add, Finset.mul_sum]
  congr 1
  refine Finset.sum_congr rfl fun j hj => ?_
  have hj := Finset.mem_range.1 hj
  by_cases h0 : j = 0
  · subst h0
    simp only [le_refl, if_true, Nat.zero_le, Nat.sub_zero, Nat.add_zero]
    rw [if_pos (by omega)]
    ring
  · rw [if_neg (show ¬ j ≤ 0 by omega)]
    by_cases h : j ≤ idx
    · rw [if_pos h, if_neg (by omega), show 0 + N - j - (N - idx) = idx - j by omega]
      ring
    · rw [if_neg h, if_pos (by omega), show idx + (0 + N - j) = idx + N - j by omega]
      ring

/-! ## Packing single coefficients -/

theorem lweLevels_isSome (N : ℕ) (k d : ℕ) (cts : ℕ → Option (ℕ → A)) (h : (cts 0).isSome) : (lweLevels N k d cts 0).isSome := by
  induction k generalizing cts d with
  | zero => exact h
  | succ k ih =>
    rw [lweLevels]
    apply ih
    rw [if_pos (by positivity)]
    exact merge_isSome h

theorem lweLevels_at {n : ℕ} (k d : ℕ) (hk : k + d ≤ n) (cts : ℕ → Option (ℕ → A)) {t : ℕ} (ht : t < 2 ^ (d + k)) :
    valOf (lweLevels (2 ^ n) k (2 ^ d) cts 0) (2 ^ (n - d - k) * t) =
      2 ^ k * valOf (cts (t % 2 ^ k)) (2 ^ (n - d) * (t / 2 ^ k)) := by
  induction k generalizing cts t d with
  | zero => simp [lweLevels, Nat.mod_one]
  | succ k ih =>
    have hd : (2 : ℕ) ^ d * 2 = 2 ^ (d + 1) := (pow_succ 2 d).symm
    have eN : 2 ^ (n - (d + 1)) * 2 ^ (d + 1) = 2 ^ n := by rw [← pow_add]; congr 1; omega
    have eT : 2 ^ n / 2 ^ (d + 1) = 2 ^ (n - (d + 1)) := by rw [← eN, Nat.mul_div_cancel _ (by positivity)]
    rw [lweLevels, hd, show n - d - (k + 1) = n - (d + 1) - k by omega,
      ih (d + 1) (by omega) _ (by rw [show d + 1 + k = d + (k + 1) by omega]; exact ht), if_pos (Nat.mod_lt _ (by positivity)), eT]
    have hlt : 2 ^ (n - (d + 1)) * (t / 2 ^ k) < 2 ^ n := by
      rw [← eN]
      refine Nat.mul_lt_mul_of_pos_left ?_ (by positivity)
      rw [Nat.div_lt_iff_lt_mul (by positivity), ← pow_add, show d + 1 + k = d + (k + 1) by omega]
      exact ht
    rw [merge_at eN (dvd_pow_self _ (by omega)) hlt]
    have e2 : t % 2 ^ (k + 1) = t % 2 ^ k + 2 ^ k * (t / 2 ^ k % 2) := by rw [pow_succ, Nat.mod_mul]
    have e3 : t / 2 ^ (k + 1) = t / 2 ^ k / 2 := by rw [pow_succ, Nat.div_div_eq_div_mul]
    have e4 : 2 ^ (n - d) = 2 ^ (n - (d + 1)) * 2 := by rw [← pow_succ]; congr 1; omega
    rw [e2, e3, e4]
    split_ifs with h1
    · rw [h1, mul_one, mul_assoc, show t / 2 ^ k - 1 = 2 * (t / 2 ^ k / 2) by omega]
      ring
    · have h0 : t / 2 ^ k % 2 = 0 := by omega
      rw [h0, mul_zero, add_zero, mul_assoc, show 2 * (t / 2 ^ k / 2) = t / 2 ^ k by omega]
      ring

theorem galois_zero {n g k m : ℕ} (hk : k ≤ n) (a : ℕ → A) (hm : ¬ 2 ^ k ∣ m)
    (ha : ∀ i, i < 2 ^ n → ¬ 2 ^ k ∣ i → a i = 0) : galois (2 ^ n) g a m = 0 := by
  unfold galois
  refine Finset.sum_eq_zero fun i hi => ?_
  split_ifs with h1
  all_goals try rfl
  all_goals
    have : a i = 0 := by
      refine ha i (Finset.mem_range.1 hi) fun hd => hm ?_
      rw [← h1]
      exact (Nat.dvd_mod_iff (pow_dvd_pow 2 hk)).2 (Dvd.dvd.mul_right hd g)
    simp [this]

theorem traceLoop_at {n : ℕ} (t k : ℕ) (hk : k + t ≤ n) (p : ℕ → A) (hp : ∀ i, i < 2 ^ n → ¬ 2 ^ k ∣ i → p i = 0) {m : ℕ}
    (hm : m < 2 ^ n) : traceLoop (2 ^ n) n t (k + 1) p m = if 2 ^ (k + t) ∣ m then 2 ^ t * p m else 0 := by
  induction t generalizing k p m with
  | zero =>
    simp only [traceLoop, add_zero, pow_zero, one_mul]
    split_ifs with h
    · rfl
    · exact hp m hm h
  | succ t ih =>
    rw [traceLoop]
    have eN : 2 ^ k * 2 ^ (n - (k + 1) + 1) = 2 ^ n := by rw [← pow_add]; congr 1; omega
    -- one step
    have step : ∀ i, i < 2 ^ n → p i + galois (2 ^ n) (2 ^ (n - (k + 1) + 1) + 1) p i =
        if 2 ^ (k + 1) ∣ i then 2 * p i else 0 := by
      intro i hi
      by_cases hd : 2 ^ k ∣ i
      · obtain ⟨u, rfl⟩ := hd
        rw [galois_mult eN (dvd_pow_self _ (by omega)) hi]
        have : 2 ^ (k + 1) ∣ 2 ^ k * u ↔ 2 ∣ u := by
          rw [pow_succ]
          exact Nat.mul_dvd_mul_iff_left (by positivity)
        simp only [this]
        split_ifs <;> first | omega | ring
      · rw [hp i hi hd, galois_zero (show k ≤ n by omega) p hd hp, if_neg, add_zero]
        exact fun h => hd ((pow_dvd_pow 2 (Nat.le_succ k)).trans h)
    rw [ih (k + 1) (by omega) _ (fun i hi hn => by rw [step i hi, if_neg hn]) hm, step m hm,
      show k + 1 + t = k + (t + 1) by omega]
    split_ifs with h1 h2
    · ring
    · exact absurd ((pow_dvd_pow 2 (by omega)).trans h1) h2
    · rfl

theorem packLWEs_spec {n l : ℕ} (hl : l ≤ n) {inv : A} (hinv : 2 ^ n * inv = 1) {cts : ℕ → Option (ℕ → A)} {x : ℕ → A}
    (hs : (cts 0).isSome) (hc : ∀ i, i < 2 ^ l → valOf (cts i) 0 = inv * x i) :
    ∃ p, packLWEs (2 ^ n) n l cts = some p ∧ ∀ m, m < 2 ^ n →
      p m = if 2 ^ n / 2 ^ l ∣ m then x (m / (2 ^ n / 2 ^ l)) else 0 := by
  have hle : 2 ^ l ≤ 2 ^ n := Nat.pow_le_pow_right (by omega) hl
  have eN : 2 ^ (n - l) * 2 ^ l = 2 ^ n := by rw [← pow_add]; congr 1; omega
  have eT : 2 ^ n / 2 ^ l = 2 ^ (n - l) := by rw [← eN, Nat.mul_div_cancel _ (by positivity)]
  obtain ⟨q, hq⟩ := Option.isSome_iff_exists.1 (lweLevels_isSome (2 ^ n) l 1 cts hs)
  refine ⟨traceLoop (2 ^ n) n (n - l) 1 q, ?_, fun m hm => ?_⟩
  · unfold packLWEs
    rw [if_pos hle, hq]
    rfl
  · have := traceLoop_at (n - l) 0 (by omega) q (fun i _ h => absurd (by simp) h) hm
    rw [zero_add] at this
    rw [this, zero_add, eT]
    split_ifs with hd
    · obtain ⟨t, rfl⟩ := hd
      rw [Nat.mul_div_cancel_left _ (by positivity)]
      have ht : t < 2 ^ l := by
        rw [← eN] at hm
        exact Nat.lt_of_mul_lt_mul_left hm
      have h2 := lweLevels_at l 0 (by omega) cts (t := t) (by rw [zero_add]; exact ht)
      rw [pow_zero, hq, Nat.sub_zero, Nat.mod_eq_of_lt ht, Nat.div_eq_of_lt ht, mul_zero, hc t ht] at h2
      rw [show q (2 ^ (n - l) * t) = valOf (some q) (2 ^ (n - l) * t) from rfl, h2]
      have e3 : (2 : A) ^ (n - l) * 2 ^ l = 2 ^ n := by rw [← pow_add]; congr 1; omega
      rw [← mul_assoc, e3, ← mul_assoc, hinv, one_mul]
    · rfl

end Spu.Model.Cdot

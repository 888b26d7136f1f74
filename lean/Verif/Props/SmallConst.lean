/-
C69: multiplication by a small constant.
-/
import Mathlib.Tactic.FieldSimp
import Mathlib.Tactic.Ring
import Mathlib.Tactic.Positivity
import Verif.Spec.SmallConst

set_option autoImplicit false

namespace Spu.Props

open Spu.SmallConst Spu.Spec.SmallConst

namespace SmallConst

/-- What the loop returns. -/
theorem twoK_of {r : ℚ} (hr : r ≤ 2 ^ 63) {N : ℕ} {c k : ℤ} (h : FindTwoK r N c k) :
    ∀ j : ℕ, j ≤ 63 → N = 2 ^ j → c = j → (∀ i < j, (2 : ℚ) ^ i < r) →
      ∃ m : ℕ, k = (m : ℤ) - 1 ∧ (∀ i < m, (2 : ℚ) ^ i < r) ∧ r ≤ 2 ^ m := by
  induction h with
  | @stop N c hs =>
    rintro j hj rfl rfl hb
    push_cast at hs
    exact ⟨j, rfl, hb, not_lt.mp hs⟩
  | @next N c k hlt _ ih =>
    rintro j hj rfl rfl hb
    push_cast at hlt
    have hj' : j < 63 := by
      by_contra hc
      have : j = 63 := by omega
      subst this
      exact absurd hlt (not_lt.mpr hr)
    refine ih (j + 1) hj' ?_ (by push_cast; ring) ?_
    · rw [← pow_succ, Nat.mod_eq_of_lt (Nat.pow_lt_pow_right (by norm_num) (by omega))]
    · intro i hi
      rcases Nat.lt_succ_iff_lt_or_eq.mp hi with h | rfl
      · exact hb i h
      · exact hlt

/-- The loop ends when `2^63` is enough. -/
theorem twoK_ends {r : ℚ} (hr : r ≤ 2 ^ 63) : ∀ d j : ℕ, j + d = 63 →
    ∃ k, FindTwoK r (2 ^ j) j k := by
  intro d
  induction d with
  | zero =>
    intro j hj
    have : j = 63 := by omega
    subst this
    exact ⟨_, .stop (by push_cast; exact not_lt.mpr hr)⟩
  | succ d ih =>
    intro j hj
    by_cases h : ((2 ^ j : ℕ) : ℚ) < r
    · obtain ⟨k, hk⟩ := ih (j + 1) (by omega)
      refine ⟨k, .next h ?_⟩
      rw [← pow_succ, Nat.mod_eq_of_lt (Nat.pow_lt_pow_right (by norm_num) (by omega))]
      exact_mod_cast hk
    · exact ⟨_, .stop h⟩

/-- It does not otherwise. -/
theorem twoK_hangs {r : ℚ} (hr : 2 ^ 63 < r) {N : ℕ} {c k : ℤ} (h : FindTwoK r N c k) :
    (N = 0 ∨ ∃ j ≤ 63, N = 2 ^ j) → False := by
  induction h with
  | @stop N c hs =>
    rintro (rfl | ⟨j, hj, rfl⟩)
    · exact hs (lt_trans (by norm_num) hr)
    · refine hs (lt_of_le_of_lt ?_ hr)
      push_cast
      exact pow_le_pow_right₀ (by norm_num) hj
  | @next N c k hlt _ ih =>
    rintro (rfl | ⟨j, hj, rfl⟩)
    · exact ih (.inl rfl)
    · rcases Nat.lt_or_ge j 63 with h | h
      · refine ih (.inr ⟨j + 1, h, ?_⟩)
        rw [← pow_succ, Nat.mod_eq_of_lt (Nat.pow_lt_pow_right (by norm_num) (by omega))]
      · have : j = 63 := by omega
        subst this
        exact ih (.inl (by norm_num))

/-- What `findTwoK` returns for a number above one. -/
theorem twoK_spec {r : ℚ} (h1 : 1 < r) {k : ℤ} (h : FindTwoK r 1 0 k) :
    0 ≤ k ∧ (2 : ℚ) ^ k.toNat < r ∧ r ≤ 2 ^ (k.toNat + 1) := by
  have hr : r ≤ 2 ^ 63 := by
    by_contra hc
    exact twoK_hangs (not_le.mp hc) h (.inr ⟨0, by omega, rfl⟩)
  obtain ⟨m, rfl, hm, hle⟩ := twoK_of hr h 0 (by omega) rfl rfl (fun i hi => by omega)
  have hm0 : m ≠ 0 := by
    rintro rfl
    simp at hle
    linarith
  obtain ⟨q, rfl⟩ := Nat.exists_eq_succ_of_ne_zero hm0
  have : ((q.succ : ℕ) : ℤ) - 1 = q := by push_cast; ring
  rw [this]
  exact ⟨by omega, by simpa using hm q (by omega), by simpa using hle⟩

/-- A product in the safe range does not wrap. -/
theorem bmod_eq {K : ℕ} (hK : 2 ≤ K) {x : ℤ} (h : |x| < 2 ^ (K - 2)) : Int.bmod x (2 ^ K) = x := by
  obtain ⟨j, rfl⟩ : ∃ j, K = j + 2 := ⟨K - 2, by omega⟩
  simp only [Nat.add_sub_cancel] at h
  rw [abs_lt] at h
  have h4 : (2 : ℤ) ^ (j + 2) = 4 * 2 ^ j := by ring
  rw [Int.bmod_eq_of_le]
  · push_cast; omega
  · push_cast; omega

/-- The scaled constant is below one and loses less than one unit when it is encoded. -/
theorem scaled {f : ℕ} (hf : 2 ≤ f) {c : ℚ} (hc0 : 0 < |c|) (hc : |c| < 4 * (1 / 2 ^ f)) {k : ℤ}
    (hk : FindTwoK (1 / |c|) 1 0 k) :
    0 ≤ encode f (2 ^ k.toNat / (1 / |c|)) ∧ encode f (2 ^ k.toNat / (1 / |c|)) ≤ 2 ^ f ∧
      |(encode f (2 ^ k.toNat / (1 / |c|)) : ℚ) - |c| * 2 ^ (f + k.toNat)| ≤ 1 ∧
      (1 : ℚ) / 2 ^ k.toNat ≤ 2 * |c| := by
  have h1 : 1 < 1 / |c| := by
    rw [lt_div_iff₀ hc0, one_mul]
    refine lt_of_lt_of_le hc ?_
    rw [mul_one_div, div_le_one (by positivity)]
    calc (4 : ℚ) = 2 ^ 2 := by norm_num
      _ ≤ 2 ^ f := pow_le_pow_right₀ (by norm_num) hf
  obtain ⟨-, hlo, hhi⟩ := twoK_spec h1 hk
  have hp : (0 : ℚ) < 2 ^ k.toNat := by positivity
  have e1 : (2 : ℚ) ^ k.toNat / (1 / |c|) = 2 ^ k.toNat * |c| := by field_simp
  have hlt : (2 : ℚ) ^ k.toNat * |c| < 1 := by
    rwa [lt_div_iff₀ hc0] at hlo
  have hnn : (0 : ℚ) ≤ 2 ^ k.toNat * |c| := by positivity
  rw [e1]
  unfold encode
  rw [if_pos hnn]
  have hfp : (0 : ℚ) < 2 ^ f := by positivity
  refine ⟨Int.floor_nonneg.mpr (by positivity), ?_, ?_, ?_⟩
  · have : ((⌊(2 : ℚ) ^ k.toNat * |c| * 2 ^ f⌋ : ℤ) : ℚ) ≤ ((2 ^ f : ℤ) : ℚ) := by
      refine (Int.floor_le _).trans ?_
      push_cast
      nlinarith
    exact_mod_cast this
  · have e2 : |c| * 2 ^ (f + k.toNat) = 2 ^ k.toNat * |c| * 2 ^ f := by rw [pow_add]; ring
    rw [e2, abs_le]
    have := Int.floor_le ((2 : ℚ) ^ k.toNat * |c| * 2 ^ f)
    have := Int.lt_floor_add_one ((2 : ℚ) ^ k.toNat * |c| * 2 ^ f)
    constructor <;> linarith
  · rw [div_le_iff₀ hp]
    rw [div_le_iff₀ hc0, pow_succ] at hhi
    linarith

/-- The integer computed on the separate path. -/
theorem small_close {K f : ℕ} {tr : ℕ → ℤ → Option ℤ} (ht : Truncates K tr) (hK : 2 ≤ K)
    (hf : 2 ≤ f) {c : ℚ} {v w : RtVal} (hc0 : 0 < |c|) (hc : |c| < 4 * (1 / 2 ^ f))
    (hx : |v.x| * 2 ^ f < 2 ^ (K - 2)) (h : Exec K f tr c v w) :
    w.fxp = v.fxp ∧ |(w.x : ℚ) - v.x * abs c| ≤ 1 + 2 * |c| * |(v.x : ℚ)| / 2 ^ f := by
  cases h with
  | fxp hn => exact absurd ⟨hc, hc0⟩ hn
  | mixed hn => exact absurd ⟨hc, hc0⟩ hn
  | @small k y _ _ hk hy =>
    refine ⟨rfl, ?_⟩
    obtain ⟨h0, h1, h2, h3⟩ := scaled hf hc0 hc hk
    generalize encode f (2 ^ k.toNat / (1 / |c|)) = E at *
    have hXE : |v.x * E| < 2 ^ (K - 2) := by
      refine lt_of_le_of_lt ?_ hx
      rw [abs_mul, abs_of_nonneg h0]
      exact mul_le_mul_of_nonneg_left h1 (abs_nonneg _)
    rw [bmod_eq hK hXE] at hy
    have hb : f + k.toNat < K := by
      by_contra hge
      rw [ht.2 _ _ (not_lt.mp hge)] at hy
      cases hy
    obtain ⟨y', hy', hclose⟩ := ht.1 (f + k.toNat) (v.x * E) hb hXE
    rw [hy] at hy'
    cases hy'
    show |(y : ℚ) - v.x * abs c| ≤ _
    have hp : (0 : ℚ) < 2 ^ (f + k.toNat) := by positivity
    have e1 : (y : ℚ) - v.x * |c| =
        ((y : ℚ) - ((v.x * E : ℤ) : ℚ) / 2 ^ (f + k.toNat)) +
          v.x * ((E : ℚ) - |c| * 2 ^ (f + k.toNat)) / 2 ^ (f + k.toNat) := by
      push_cast
      field_simp
      ring
    rw [e1]
    refine (abs_add_le _ _).trans (add_le_add hclose ?_)
    rw [abs_div, abs_mul, abs_of_pos hp, pow_add]
    have e2 : 2 * |c| * |(v.x : ℚ)| / 2 ^ f = |(v.x : ℚ)| * (2 * |c|) / 2 ^ f := by ring
    rw [e2]
    calc |(v.x : ℚ)| * |(E : ℚ) - |c| * (2 ^ f * 2 ^ k.toNat)| / (2 ^ f * 2 ^ k.toNat)
        ≤ |(v.x : ℚ)| * 1 / (2 ^ f * 2 ^ k.toNat) := by
          rw [← pow_add]
          gcongr
      _ = |(v.x : ℚ)| * (1 / 2 ^ k.toNat) / 2 ^ f := by field_simp
      _ ≤ |(v.x : ℚ)| * (2 * |c|) / 2 ^ f := by gcongr

end SmallConst

open SmallConst

/-- **C69.** The product with a small positive constant is off by at most one unit plus a relative
error of two units. -/
theorem c69_pos {K f : ℕ} {tr : ℕ → ℤ → Option ℤ} (ht : Truncates K tr) (hK : 2 ≤ K)
    (hf : 2 ≤ f) {c : ℚ} {v w : RtVal} (hc0 : 0 < c) (hc : c < 4 * (1 / 2 ^ f))
    (hv : v.fxp = true) (hx : |v.x| * 2 ^ f < 2 ^ (K - 2)) (h : Exec K f tr c v w) :
    w.fxp = true ∧ |num f w - num f v * c| ≤ (1 + 2 * |num f v * c|) / 2 ^ f := by
  have ha := abs_of_pos hc0
  obtain ⟨h1, h2⟩ := small_close ht hK hf (by rwa [ha]) (by rwa [ha]) hx h
  rw [ha] at h2
  rw [hv] at h1
  refine ⟨h1, ?_⟩
  have hfp : (0 : ℚ) < 2 ^ f := by positivity
  simp only [num, hv, h1, if_true]
  rw [show (w.x : ℚ) / 2 ^ f - v.x / 2 ^ f * c = ((w.x : ℚ) - v.x * c) / 2 ^ f by ring, abs_div,
    abs_of_pos hfp]
  gcongr
  refine h2.trans (le_of_eq ?_)
  rw [abs_mul, abs_div, abs_of_pos hfp, ha]
  ring

/-- **C69**: there is such a result for all constants that are not too small. -/
theorem c69_exists {K f : ℕ} {tr : ℕ → ℤ → Option ℤ} (ht : Truncates K tr) (hK : 2 ≤ K)
    (hf : 2 ≤ f) (hfK : f ≤ K) {c : ℚ} {v : RtVal} (hc0 : 0 < |c|) (hc : |c| < 4 * (1 / 2 ^ f))
    (h63 : 1 ≤ |c| * 2 ^ 63) (hw : 1 ≤ |c| * 2 ^ (K - f))
    (hx : |v.x| * 2 ^ f < 2 ^ (K - 2)) : ∃ w, Exec K f tr c v w := by
  have hr : 1 / |c| ≤ 2 ^ 63 := by rw [div_le_iff₀ hc0]; linarith
  obtain ⟨k, hk⟩ := twoK_ends hr 63 0 rfl
  have hk' : FindTwoK (1 / |c|) 1 0 k := by simpa using hk
  obtain ⟨h0, h1, -, -⟩ := scaled hf hc0 hc hk'
  have hXE : |v.x * encode f (2 ^ k.toNat / (1 / |c|))| < 2 ^ (K - 2) := by
    refine lt_of_le_of_lt ?_ hx
    rw [abs_mul, abs_of_nonneg h0]
    exact mul_le_mul_of_nonneg_left h1 (abs_nonneg _)
  have h1' : 1 < 1 / |c| := by
    rw [lt_div_iff₀ hc0, one_mul]
    refine lt_of_lt_of_le hc ?_
    rw [mul_one_div, div_le_one (by positivity)]
    calc (4 : ℚ) = 2 ^ 2 := by norm_num
      _ ≤ 2 ^ f := pow_le_pow_right₀ (by norm_num) hf
  obtain ⟨-, hlo, -⟩ := twoK_spec h1' hk'
  have hb : f + k.toNat < K := by
    have h2 : 1 / |c| ≤ 2 ^ (K - f) := by rw [div_le_iff₀ hc0]; linarith
    have h3 : (2 : ℚ) ^ k.toNat < 2 ^ (K - f) := lt_of_lt_of_le hlo h2
    have := (pow_lt_pow_iff_right₀ (by norm_num : (1 : ℚ) < 2)).mp h3
    omega
  obtain ⟨y, hy, -⟩ := ht.1 _ _ hb hXE
  exact ⟨_, .small hc hc0 hk' (by rw [bmod_eq hK hXE]; exact hy)⟩

/-- **C69, where it fails**: the sign of a small constant is ignored. -/
theorem c69_sign_lost {K f : ℕ} {tr : ℕ → ℤ → Option ℤ} {c : ℚ} {v w : RtVal}
    (hc0 : 0 < |c|) (hc : |c| < 4 * (1 / 2 ^ f)) :
    Exec K f tr c v w ↔ Exec K f tr (-c) v w := by
  have key : ∀ d : ℚ, 0 < |d| → |d| < 4 * (1 / 2 ^ f) → Exec K f tr d v w → Exec K f tr (-d) v w := by
    intro d h0 h1 h
    cases h with
    | fxp hn => exact absurd ⟨h1, h0⟩ hn
    | mixed hn => exact absurd ⟨h1, h0⟩ hn
    | small _ _ hk hy =>
      exact .small (by rwa [abs_neg]) (by rwa [abs_neg]) (by rwa [abs_neg]) (by rwa [abs_neg])
  refine ⟨key c hc0 hc, fun h => ?_⟩
  have := key (-c) (by rwa [abs_neg]) (by rwa [abs_neg]) h
  rwa [neg_neg] at this

/-- **C69, where it fails**: a product of an integer (which `LowerMixedTypeOp` makes out of the product
of its conversion) with a small constant is an integer. -/
theorem c69_int {K f : ℕ} {tr : ℕ → ℤ → Option ℤ} {c : ℚ} {v w : RtVal}
    (hc0 : 0 < |c|) (hc : |c| < 4 * (1 / 2 ^ f)) (hv : v.fxp = false) (h : Exec K f tr c v w) :
    ∃ n : ℤ, num f w = n := by
  cases h with
  | fxp hn => exact absurd ⟨hc, hc0⟩ hn
  | mixed hn => exact absurd ⟨hc, hc0⟩ hn
  | @small k y => exact ⟨y, by simp [num, hv]⟩

/-- **C69, where it fails**: there is no result when the constant is below `2^-63`, since `findTwoK` does
not return, nor when it is below `2^(f - K)`, since the shift is as wide as the ring. -/
theorem c69_none {K f : ℕ} {tr : ℕ → ℤ → Option ℤ} (ht : Truncates K tr) (hf : 2 ≤ f) (hfK : f ≤ K)
    {c : ℚ} {v : RtVal} (hc0 : 0 < |c|) (hc : |c| < 4 * (1 / 2 ^ f))
    (h : |c| * 2 ^ 63 < 1 ∨ |c| * 2 ^ (K - f + 1) < 1) : ¬ ∃ w, Exec K f tr c v w := by
  rintro ⟨w, hw⟩
  cases hw with
  | fxp hn => exact hn ⟨hc, hc0⟩
  | mixed hn => exact hn ⟨hc, hc0⟩
  | @small k y _ _ hk hy =>
    rcases h with h | h
    · refine twoK_hangs ?_ hk (.inr ⟨0, by omega, rfl⟩)
      rw [lt_div_iff₀ hc0]
      linarith
    · have h1 : 1 < 1 / |c| := by
        rw [lt_div_iff₀ hc0, one_mul]
        refine lt_of_lt_of_le hc ?_
        rw [mul_one_div, div_le_one (by positivity)]
        calc (4 : ℚ) = 2 ^ 2 := by norm_num
          _ ≤ 2 ^ f := pow_le_pow_right₀ (by norm_num) hf
      obtain ⟨-, -, hhi⟩ := twoK_spec h1 hk
      have hb : K ≤ f + k.toNat := by
        have h2 : (2 : ℚ) ^ (K - f + 1) < 1 / |c| := by rw [lt_div_iff₀ hc0]; linarith
        have h3 : (2 : ℚ) ^ (K - f + 1) < 2 ^ (k.toNat + 1) := lt_of_lt_of_le h2 hhi
        have := (pow_lt_pow_iff_right₀ (by norm_num : (1 : ℚ) < 2)).mp h3
        omega
      rw [ht.2 _ _ hb] at hy
      cases hy

/-- **C69**: any other constant: one unit for the truncation, if there is one, and one unit times the
number for the encoding of the constant. -/
theorem c69_other {K f : ℕ} {tr : ℕ → ℤ → Option ℤ} (ht : Truncates K tr) (hK : 2 ≤ K)
    {c : ℚ} {v w : RtVal} (hc : ¬ (|c| < 4 * (1 / 2 ^ f) ∧ 0 < |c|)) (hfK : f < K)
    (hx : |v.x * encode f c| < 2 ^ (K - 2)) (h : Exec K f tr c v w) :
    w.fxp = true ∧ |num f w - num f v * c| ≤
      ((if v.fxp then 1 else 0) + |num f v|) / 2 ^ f := by
  have hfp : (0 : ℚ) < 2 ^ f := by positivity
  have henc : |(encode f c : ℚ) - c * 2 ^ f| ≤ 1 := by
    unfold encode
    split_ifs with h0
    · have h1 := Int.floor_le (c * 2 ^ f)
      have h2 := Int.lt_floor_add_one (c * 2 ^ f)
      rw [abs_le]
      constructor <;> linarith
    · have h1 := Int.le_ceil (c * 2 ^ f)
      have h2 := Int.ceil_lt_add_one (c * 2 ^ f)
      rw [abs_le]
      constructor <;> linarith
  cases h with
  | small h1 h2 => exact absurd ⟨h1, h2⟩ hc
  | @fxp y _ hv hy =>
    refine ⟨rfl, ?_⟩
    rw [bmod_eq hK hx] at hy
    obtain ⟨y', hy', hclose⟩ := ht.1 f _ hfK hx
    rw [hy] at hy'
    cases hy'
    simp only [num, hv, if_true]
    have e1 : (y : ℚ) / 2 ^ f - v.x / 2 ^ f * c =
        (((y : ℚ) - ((v.x * encode f c : ℤ) : ℚ) / 2 ^ f) +
          v.x / 2 ^ f * ((encode f c : ℚ) - c * 2 ^ f)) / 2 ^ f := by
      push_cast
      field_simp
      ring
    rw [e1, abs_div, abs_of_pos hfp]
    gcongr
    refine (abs_add_le _ _).trans (add_le_add hclose ?_)
    rw [abs_mul]
    calc _ ≤ |(v.x : ℚ) / 2 ^ f| * 1 := by gcongr
      _ = _ := mul_one _
  | mixed _ hv =>
    refine ⟨rfl, ?_⟩
    rw [bmod_eq hK hx]
    simp only [num, hv, if_true, Bool.false_eq_true, if_false, zero_add]
    have e1 : ((v.x * encode f c : ℤ) : ℚ) / 2 ^ f - v.x * c =
        v.x * ((encode f c : ℚ) - c * 2 ^ f) / 2 ^ f := by
      push_cast
      field_simp
    rw [e1, abs_div, abs_of_pos hfp, abs_mul]
    gcongr
    calc _ ≤ |(v.x : ℚ)| * 1 := by gcongr
      _ = _ := mul_one _

/-! ### Examples -/

/-- An arithmetic shift, in a ring of 64 bits. -/
def shift64 (b : ℕ) (x : ℤ) : Option ℤ := if b < 64 then some (x / 2 ^ b) else none

theorem shift64_truncates : Truncates 64 shift64 := by
  refine ⟨fun b x hb _ => ⟨x / 2 ^ b, by simp [shift64, hb], ?_⟩, fun b x hb => ?_⟩
  · have hp : (0 : ℤ) < 2 ^ b := by positivity
    have h1 := Int.emod_add_mul_ediv x (2 ^ b)
    have h2 := Int.emod_nonneg x hp.ne'
    have h3 := Int.emod_lt_of_pos x hp
    have h1' : ((x % 2 ^ b : ℤ) : ℚ) + 2 ^ b * ((x / 2 ^ b : ℤ) : ℚ) = x := by exact_mod_cast h1
    have h3' : ((x % 2 ^ b : ℤ) : ℚ) < 2 ^ b := by exact_mod_cast h3
    have h2' : (0 : ℚ) ≤ ((x % 2 ^ b : ℤ) : ℚ) := by exact_mod_cast h2
    have hq : (0 : ℚ) < 2 ^ b := by positivity
    have e : ((x / 2 ^ b : ℤ) : ℚ) - (x : ℚ) / 2 ^ b = -(((x % 2 ^ b : ℤ) : ℚ) / 2 ^ b) := by
      rw [← h1']
      field_simp
      ring
    rw [e, abs_neg, abs_of_nonneg (by positivity), div_le_one hq]
    exact h3'.le
  · simp [shift64, not_lt.mpr hb]

theorem SmallConst.twoK_17 : FindTwoK (1 / |(1 / 2 ^ 17 : ℚ)|) 1 0 16 := by
  obtain ⟨k, hk⟩ := twoK_ends (r := 1 / |(1 / 2 ^ 17 : ℚ)|) (by
    rw [abs_of_pos (by positivity)]; norm_num) 63 0 rfl
  have hk' : FindTwoK (1 / |(1 / 2 ^ 17 : ℚ)|) 1 0 k := by simpa using hk
  obtain ⟨h0, h1, h2⟩ := twoK_spec (by rw [abs_of_pos (by positivity)]; norm_num) hk'
  have e : 1 / |(1 / 2 ^ 17 : ℚ)| = 2 ^ 17 := by rw [abs_of_pos (by positivity)]; norm_num
  rw [e] at h1 h2
  have h1' := (pow_lt_pow_iff_right₀ (by norm_num : (1 : ℚ) < 2)).mp h1
  have h2' := (pow_le_pow_iff_right₀ (by norm_num : (1 : ℚ) < 2)).mp h2
  have : k = 16 := by omega
  rw [← this]
  exact hk'

/-- With 18 fraction bits, `2^20 * 2^-17 = 8`; so is `2^20 * -2^-17`. -/
example : Exec 64 18 shift64 (1 / 2 ^ 17) ⟨true, 2 ^ 20 * 2 ^ 18⟩ ⟨true, 8 * 2 ^ 18⟩ ∧
    Exec 64 18 shift64 (-(1 / 2 ^ 17)) ⟨true, 2 ^ 20 * 2 ^ 18⟩ ⟨true, 8 * 2 ^ 18⟩ := by
  have hp : |(1 / 2 ^ 17 : ℚ)| = 1 / 2 ^ 17 := abs_of_pos (by positivity)
  have h : Exec 64 18 shift64 (1 / 2 ^ 17) ⟨true, 2 ^ 20 * 2 ^ 18⟩ ⟨true, 8 * 2 ^ 18⟩ := by
    refine .small (by rw [hp]; norm_num) (by rw [hp]; norm_num) SmallConst.twoK_17 ?_
    have e : encode 18 (2 ^ (16 : ℤ).toNat / (1 / |(1 / 2 ^ 17 : ℚ)|)) = 2 ^ 17 := by
      rw [hp, show (16 : ℤ).toNat = 16 from rfl]
      norm_num [encode]
    rw [e]
    decide +kernel
  exact ⟨h, (c69_sign_lost (by rw [hp]; norm_num) (by rw [hp]; norm_num)).mp h⟩

/-- `1e-30` hangs; with 18 of 64 bits `2^-48` shifts by 65. -/
example : (¬ ∃ w, Exec 64 18 shift64 (1 / 10 ^ 30) ⟨true, 2 ^ 18⟩ w) ∧
    ¬ ∃ w, Exec 64 18 shift64 (1 / 2 ^ 48) ⟨true, 2 ^ 18⟩ w := by
  constructor
  · have hp : |(1 / 10 ^ 30 : ℚ)| = 1 / 10 ^ 30 := abs_of_pos (by positivity)
    exact c69_none shift64_truncates (by norm_num) (by norm_num) (by rw [hp]; norm_num)
      (by rw [hp]; norm_num) (.inl (by rw [hp]; norm_num))
  · have hp : |(1 / 2 ^ 48 : ℚ)| = 1 / 2 ^ 48 := abs_of_pos (by positivity)
    exact c69_none shift64_truncates (by norm_num) (by norm_num) (by rw [hp]; norm_num)
      (by rw [hp]; norm_num) (.inr (by rw [hp]; norm_num))

/-- `500000 * 1e-6` with the first operand an integer: not a half, whatever the truncation. -/
example {tr : ℕ → ℤ → Option ℤ} (w : RtVal) (h : Exec 64 18 tr (1 / 10 ^ 6) ⟨false, 500000⟩ w) :
    num 18 w ≠ 1 / 2 := by
  have hp : |(1 / 10 ^ 6 : ℚ)| = 1 / 10 ^ 6 := abs_of_pos (by positivity)
  obtain ⟨n, hn⟩ := c69_int (by rw [hp]; norm_num) (by rw [hp]; norm_num) rfl h
  rw [hn]
  intro hc
  have : (2 * n : ℚ) = 1 := by rw [hc]; norm_num
  have : 2 * n = 1 := by exact_mod_cast this
  omega

/-- `3 * 0.25` takes the ordinary way. -/
example : Exec 64 18 shift64 (1 / 4) ⟨true, 3 * 2 ^ 18⟩ ⟨true, 3 * 2 ^ 16⟩ := by
  have e : encode 18 (1 / 4) = 2 ^ 16 := by norm_num [encode]
  refine .fxp ?_ rfl ?_
  · rw [abs_of_pos (by norm_num)]; norm_num
  · rw [e]; decide +kernel

end Spu.Props

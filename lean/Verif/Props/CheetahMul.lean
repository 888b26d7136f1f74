import Verif.Model.CheetahMul
import Verif.Spec.CheetahMul
import Verif.Props.ModSwitch
import Mathlib.Data.Nat.ChineseRemainder

set_option autoImplicit false

/-!
C59: Cheetah's element-wise multiplication of private arrays.
-/

namespace Spu.Props

open Spu.Model.Ms Spu.Model.Cmul Spu.Spec.Ms Spu.Spec.Cmul

/-! ## Arrays -/

theorem cmTab_ok {α : Type} {d : α} {n : ℕ} {f : ℕ → Option α} {F : ℕ → α} (h : ∀ i, i < n → f i = some (F i)) :
    ∃ g, tab d n f = some g ∧ ∀ i, i < n → g i = F i := by
  refine ⟨fun i => (f i).getD d, if_pos fun i hi => ?_, fun i hi => ?_⟩
  · rw [h i (List.mem_range.1 hi)]; rfl
  · simp only [h i hi, Option.getD_some]

theorem cmWriteAll_ok {total : ℕ} {F : ℕ → ℕ} {parts : List (ℕ × ℕ × (ℕ → ℕ))}
    (hb : ∀ j ∈ parts, j.1 + j.2.1 ≤ total) (hF : ∀ j ∈ parts, ∀ i, i < j.2.1 → j.2.2 i = F (j.1 + i)) :
    ∃ g, writeAll total parts = some g ∧ ∀ p, (∃ j ∈ parts, j.1 ≤ p ∧ p < j.1 + j.2.1) → g p = F p := by
  have key : ∀ (parts : List (ℕ × ℕ × (ℕ → ℕ))) (arr : ℕ → ℕ) (S : ℕ → Prop),
      (∀ j ∈ parts, j.1 + j.2.1 ≤ total) → (∀ j ∈ parts, ∀ i, i < j.2.1 → j.2.2 i = F (j.1 + i)) →
      (∀ p, S p → arr p = F p) →
      ∃ g, parts.foldlM (fun arr j => if j.1 + j.2.1 ≤ total then some (write arr j.1 j.2.1 j.2.2) else none) arr =
        some g ∧ ∀ p, S p ∨ (∃ j ∈ parts, j.1 ≤ p ∧ p < j.1 + j.2.1) → g p = F p := by
    intro parts
    induction parts with
    | nil =>
      intro arr S _ _ h
      exact ⟨arr, rfl, fun p hp => hp.elim (h p) fun ⟨j, hj, _⟩ => by simp at hj⟩
    | cons j parts ih =>
      intro arr S hb hF h
      obtain ⟨g, hg, hp⟩ := ih (write arr j.1 j.2.1 j.2.2) (fun p => S p ∨ (j.1 ≤ p ∧ p < j.1 + j.2.1))
        (fun j' hj' => hb j' (List.mem_cons_of_mem _ hj')) (fun j' hj' => hF j' (List.mem_cons_of_mem _ hj')) (by
          intro p hp
          unfold write
          split_ifs with hc
          · rw [hF j List.mem_cons_self (p - j.1) (by omega)]; congr 1; omega
          · exact h p (hp.resolve_right hc))
      refine ⟨g, ?_, ?_⟩
      · rw [List.foldlM_cons, if_pos (hb j List.mem_cons_self)]; exact hg
      · rintro p (hs | ⟨j', hj', hr⟩)
        · exact hp p (Or.inl (Or.inl hs))
        · rcases List.mem_cons.1 hj' with rfl | hj'
          · exact hp p (Or.inl (Or.inr hr))
          · exact hp p (Or.inr ⟨j', hj', hr⟩)
  obtain ⟨g, hg, hp⟩ := key parts (fun _ => 0) (fun _ => False) hb hF (fun p h => h.elim)
  exact ⟨g, hg, fun p h => hp p (Or.inr h)⟩

theorem cmSplits_lt {N n i : ℕ} (hN : 0 < N) (hi : i < n) : i / N < splits N n := by
  unfold splits cdiv
  rw [Nat.div_lt_iff_lt_mul hN]
  have := Nat.lt_div_mul_add (a := n + N - 1) hN
  omega

theorem cmSplits_mul {N n s : ℕ} (hN : 0 < N) (hs : s < splits N n) : s * N < n := by
  unfold splits cdiv at hs
  have h1 : (s + 1) * N ≤ n + N - 1 := (Nat.le_div_iff_mul_le hN).1 hs
  rw [Nat.add_mul] at h1
  omega

theorem cmJob {S l s : ℕ} (hs : s < S) : (l * S + s) / S = l ∧ (l * S + s) % S = s := by
  have h0 : 0 < S := by omega
  constructor
  · rw [Nat.mul_comm, Nat.mul_add_div h0, Nat.div_eq_of_lt hs, add_zero]
  · rw [Nat.mul_comm, Nat.mul_add_mod, Nat.mod_eq_of_lt hs]

theorem cmJob_lt {S L job : ℕ} (h : job < L * S) : job / S < L ∧ job % S < S ∧ job = job / S * S + job % S := by
  have h0 : 0 < S := Nat.pos_of_ne_zero fun e => by simp [e] at h
  exact ⟨(Nat.div_lt_iff_lt_mul h0).2 h, Nat.mod_lt _ h0, (Nat.div_add_mod' _ _).symm⟩

theorem cmIdx_lt {L n l i : ℕ} (hl : l < L) (hi : i < n) : l * n + i < L * n := by
  have : (l + 1) * n ≤ L * n := Nat.mul_le_mul_right _ hl
  rw [Nat.add_mul] at this
  omega

/-- What `EncodeArray` puts into the slots. -/
theorem cmEncode_ok {h : Helper} {w N n : ℕ} (hN : 0 < N) {up : Bool} {array : ℕ → ℕ} {val : ℕ → ℕ → ℕ}
    (hv : ∀ l, l < h.c.L → ∀ i, i < n →
      (if up then upAt h w l (array i) else centreAt h w l (array i)) = some (val l i) ∧ val l i < h.c.q l) :
    ∃ E, encode h w N n up array = some E ∧
      ∀ l, l < h.c.L → ∀ i, i < n → E (l * splits N n + i / N) (i % N) = val l i := by
  have job : ∀ job, job < h.c.L * splits N n → ∃ P, encodeJob h w N n up array job = some P ∧
      ∀ i, i < N → job % splits N n * N + i < n → P i = val (job / splits N n) (job % splits N n * N + i) := by
    intro job hj
    obtain ⟨hl, hs, -⟩ := cmJob_lt hj
    have hb := cmSplits_mul hN hs
    unfold encodeJob
    dsimp only
    generalize job / splits N n = l at *
    generalize job % splits N n = s at *
    obtain ⟨dst, e, hd⟩ := cmTab_ok (d := 0) (n := min n (s * N + N) - s * N)
      (f := fun i => if up = true then upAt h w l (array (s * N + i)) else centreAt h w l (array (s * N + i)))
      (F := fun i => val l (s * N + i)) (fun i hi => (hv l hl (s * N + i) (by omega)).1)
    rw [e, Option.bind_eq_bind, Option.bind_some, guard_bind]
    · exact ⟨_, rfl, fun i hi hin => by rw [if_pos (by omega), hd i (by omega)]⟩
    · intro i hi
      have hi := List.mem_range.1 hi
      rw [hd i hi]
      exact (hv l hl (s * N + i) (by omega)).2
  choose! P hP using job
  obtain ⟨E, e, hE⟩ := cmTab_ok (d := fun _ => (0 : ℕ)) (n := h.c.L * splits N n) (f := encodeJob h w N n up array)
    (F := P) (fun j hj => (hP j hj).1)
  refine ⟨E, e, fun l hl i hi => ?_⟩
  have hs := cmSplits_lt hN hi
  have hj := cmIdx_lt hl hs
  obtain ⟨j1, j2⟩ := cmJob (l := l) hs
  have hdm := Nat.div_add_mod' i N
  rw [hE _ hj, (hP _ hj).2 _ (Nat.mod_lt _ hN) (by rw [j2, hdm]; exact hi), j1, j2, hdm]

theorem cmMask_ok {h : Helper} {N n : ℕ} (hN : 0 < N) (rnd : ℕ → ℕ → ℕ) :
    ∃ m, prepareMask h N n rnd = some m ∧ ∀ l, l < h.c.L → ∀ i, i < n → m (l * n + i) = rnd l i := by
  have hmod : ∀ l i, i < n → (l * n + i) / n = l ∧ (l * n + i) % n = i := fun l i hi => cmJob hi
  obtain ⟨m, e, hm⟩ := cmWriteAll_ok (total := h.c.L * n) (F := fun p => rnd (p / n) (p % n))
    (parts := (List.range h.c.L).flatMap fun c => (List.range (splits N n)).map fun j =>
      (c * n + j * N, min N (n - j * N), fun i => rnd c (j * N + i)))
    (by
      intro j hj
      simp only [List.mem_flatMap, List.mem_map, List.mem_range] at hj
      obtain ⟨c, hc, s, hs, rfl⟩ := hj
      have := cmSplits_mul hN hs
      have h2 : (c + 1) * n ≤ h.c.L * n := Nat.mul_le_mul_right _ hc
      rw [Nat.add_mul] at h2
      show c * n + s * N + min N (n - s * N) ≤ _
      omega)
    (by
      intro j hj i hi
      simp only [List.mem_flatMap, List.mem_map, List.mem_range] at hj
      obtain ⟨c, hc, s, hs, rfl⟩ := hj
      have hi : i < min N (n - s * N) := hi
      have := hmod c (s * N + i) (by omega)
      show rnd c (s * N + i) = rnd ((c * n + s * N + i) / n) ((c * n + s * N + i) % n)
      rw [add_assoc, this.1, this.2])
  refine ⟨m, e, fun l hl i hi => ?_⟩
  rw [hm, (hmod l i hi).1, (hmod l i hi).2]
  have hs := cmSplits_lt hN hi
  have hdm := Nat.div_add_mod' i N
  have hlt := Nat.mod_lt i hN
  refine ⟨(l * n + i / N * N, min N (n - i / N * N), fun k => rnd l (i / N * N + k)), ?_, ?_, ?_⟩
  · simp only [List.mem_flatMap, List.mem_map, List.mem_range]
    exact ⟨l, hl, i / N, hs, rfl⟩
  · show l * n + i / N * N ≤ l * n + i
    omega
  · show l * n + i < l * n + i / N * N + min N (n - i / N * N)
    omega

/-- The two arrays of residues that are switched down. -/
theorem cmReshare_ok {h : Helper} {w N n : ℕ} (hN : 0 < N) {prod : ℕ → ℕ → ℕ} {rnd : ℕ → ℕ → ℕ}
    (hr : ∀ l, l < h.c.L → ∀ i, i < n → rnd l i < h.c.q l) (hw : w = bitCeil h.c.k) :
    ∃ a b, reshare h w N n prod rnd = some (a, b) ∧ ∀ i, i < n →
      (∃ src : ℕ → ℕ, (∀ l, l < h.c.L → src l = rnd l i) ∧ down h w src = some (a i)) ∧
      ∃ src : ℕ → ℕ, (∀ l, l < h.c.L →
        src l = (prod (l * splits N n + i / N) (i % N) % h.c.q l + (h.c.q l - rnd l i)) % h.c.q l) ∧
        down h w src = some (b i) := by
  have hd : ∀ src : ℕ → ℕ, down h w src = some ((down h w src).getD 0) := by
    intro src
    unfold down
    rw [guard_bind hw]
    rfl
  obtain ⟨m, em, hm⟩ := cmMask_ok (h := h) hN rnd
  have job : ∀ job, job < h.c.L * splits N n → ∃ P, respond h N n prod m job = some P ∧
      ∀ i, i < N → job % splits N n * N + i < n → P i = (prod job i % h.c.q (job / splits N n) +
        (h.c.q (job / splits N n) - rnd (job / splits N n) (job % splits N n * N + i))) % h.c.q (job / splits N n) := by
    intro job hj
    obtain ⟨hl, hs, -⟩ := cmJob_lt hj
    have hb := cmSplits_mul hN hs
    unfold respond
    dsimp only
    generalize job / splits N n = l at *
    generalize job % splits N n = s at *
    have h2 : (l + 1) * n ≤ h.c.L * n := Nat.mul_le_mul_right _ hl
    rw [Nat.add_mul] at h2
    rw [guard_bind (by rw [Nat.mul_comm n]; omega), guard_bind]
    · refine ⟨_, rfl, fun i hi hin => ?_⟩
      rw [if_pos (by omega), show s * N + l * n + i = l * n + (s * N + i) by ring, hm l hl _ hin]
    · intro i hi
      have hi := List.mem_range.1 hi
      rw [show s * N + l * n + i = l * n + (s * N + i) by ring, hm l hl _ (by omega)]
      exact hr l hl _ (by omega)
  choose! P hP using job
  obtain ⟨R, eR, hR⟩ := cmTab_ok (d := fun _ => (0 : ℕ)) (n := h.c.L * splits N n) (f := respond h N n prod m)
    (F := P) (fun j hj => (hP j hj).1)
  obtain ⟨a, ea, ha⟩ := cmTab_ok (d := 0) (n := n) (f := fun i => down h w fun l => m (l * n + i)) (F := fun i => (down h w fun l => m (l * n + i)).getD 0)
    (fun i hi => hd _)
  obtain ⟨z, ez, hz⟩ := cmWriteAll_ok (total := n * h.c.L)
    (F := fun p => (prod (p / n * splits N n + p % n / N) (p % n % N) % h.c.q (p / n) +
        (h.c.q (p / n) - rnd (p / n) (p % n))) % h.c.q (p / n))
    (parts := decryptParts h N n R)
    (by
      intro j hj
      simp only [decryptParts, List.mem_map, List.mem_range] at hj
      obtain ⟨c, hc, rfl⟩ := hj
      obtain ⟨hl, hs, -⟩ := cmJob_lt hc
      have := cmSplits_mul hN hs
      have h2 : (c / splits N n + 1) * n ≤ h.c.L * n := Nat.mul_le_mul_right _ hl
      rw [Nat.add_mul] at h2
      dsimp only
      rw [Nat.mul_comm n]
      omega)
    (by
      intro j hj i hi
      simp only [decryptParts, List.mem_map, List.mem_range] at hj
      obtain ⟨c, hc, rfl⟩ := hj
      obtain ⟨hl, hs, hc'⟩ := cmJob_lt hc
      have hb := cmSplits_mul hN hs
      dsimp only at hi ⊢
      rw [hR c hc, (hP c hc).2 i (by omega) (by omega)]
      have hin : c % splits N n * N + i < n := by omega
      have hiN : i < N := by omega
      obtain ⟨q1, q2⟩ := cmJob (S := n) (l := c / splits N n) hin
      obtain ⟨r1, r2⟩ := cmJob (S := N) (l := c % splits N n) hiN
      rw [add_assoc, q1, q2, r1, r2, ← hc'])
  obtain ⟨b, eb, hb⟩ := cmTab_ok (d := 0) (n := n) (f := fun i => down h w fun l => z (l * n + i)) (F := fun i => (down h w fun l => z (l * n + i)).getD 0)
    (fun i hi => hd _)
  have hzv : ∀ i, i < n → ∀ l, l < h.c.L → z (l * n + i) =
      (prod (l * splits N n + i / N) (i % N) % h.c.q l + (h.c.q l - rnd l i)) % h.c.q l := by
      intro i hi l hl
      obtain ⟨q1, q2⟩ := cmJob (S := n) (l := l) hi
      have hs := cmSplits_lt hN hi
      obtain ⟨j1, j2⟩ := cmJob (l := l) hs
      have hdm := Nat.div_add_mod' i N
      have hlt := Nat.mod_lt i hN
      rw [hz, q1, q2]
      refine ⟨(l * n + i / N * N, min n (i / N * N + N) - i / N * N, R (l * splits N n + i / N)), ?_, ?_, ?_⟩
      · simp only [decryptParts, List.mem_map, List.mem_range]
        exact ⟨l * splits N n + i / N, cmIdx_lt hl hs, by rw [j1, j2]⟩
      · show l * n + i / N * N ≤ l * n + i
        omega
      · show l * n + i < l * n + i / N * N + (min n (i / N * N + N) - i / N * N)
        omega
  refine ⟨a, b, ?_, fun i hi => ⟨⟨fun l => m (l * n + i), fun l hl => hm l hl i hi, ?_⟩,
    ⟨fun l => z (l * n + i), hzv i hi, ?_⟩⟩⟩
  rotate_left
  · rw [ha i hi]; exact hd _
  · rw [hb i hi]; exact hd _
  unfold reshare downArr
  simp only [em, eR, ea, ez, eb, Option.bind_eq_bind, Option.bind_some]

/-! ## One element -/

theorem cmCore {v : ℤ} {err y δ₁ δ₂ B ρ : ℚ} (he : |err| ≤ B) (h1 : 0 ≤ δ₁) (h1' : δ₁ < ρ) (h2 : 0 ≤ δ₂) (h2' : δ₂ < ρ)
    (hm : B + 2 * ρ < 1) :
    ∃ e : ℤ, |e| ≤ 1 ∧ near (v + err - y - δ₁) + near (y - δ₂) = v + e ∧
      (B + ρ ≤ Int.fract (y + 1 / 2) → Int.fract (y + 1 / 2) ≤ 1 - (B + ρ) → e = 0) ∧
      (ρ ≤ Int.fract (y + 1 / 2) → Int.fract (y + 1 / 2) + ρ ≤ err → e = 1) := by
  obtain ⟨he1, he2⟩ := abs_le.1 he
  set u := y - δ₂ + 1 / 2 with hu
  have f0 := Int.fract_nonneg u
  have f1 := Int.fract_lt_one u
  have e1 : near (v + err - y - δ₁) = v - ⌊u⌋ + ⌊1 + err - δ₁ - δ₂ - Int.fract u⌋ := by
    rw [near, ← Int.floor_intCast_add]
    congr 1
    push_cast
    rw [Int.fract]
    rw [hu]
    ring
  have fr : ρ ≤ Int.fract (y + 1 / 2) → Int.fract u = Int.fract (y + 1 / 2) - δ₂ := by
    intro g
    rw [Int.fract_eq_iff]
    have := Int.fract_lt_one (y + 1 / 2)
    refine ⟨by linarith, by linarith, ⌊y + 1 / 2⌋, ?_⟩
    rw [hu, Int.fract]; ring
  refine ⟨⌊1 + err - δ₁ - δ₂ - Int.fract u⌋, ?_, ?_, ?_, ?_⟩
  · rw [abs_le]
    constructor
    · rw [Int.le_floor]; push_cast; linarith
    · rw [← Int.lt_add_one_iff, Int.floor_lt]; push_cast; linarith
  · rw [e1, show near (y - δ₂) = ⌊u⌋ from rfl]; ring
  · intro g1 g2
    have hB : 0 ≤ B := (abs_nonneg _).trans he
    rw [fr (by linarith), Int.floor_eq_iff]
    push_cast
    constructor <;> linarith
  · intro g1 g2
    have := Int.fract_nonneg (y + 1 / 2)
    rw [fr g1, Int.floor_eq_iff]
    push_cast
    constructor <;> linarith

theorem cmCrt {c : Ctx} (H : CtxOk c) (src : ℕ → ℕ) : ∃ X, X < c.Q ∧ ∀ l, l < c.L → src l % c.q l = X % c.q l := by
  have hs : ∀ i ∈ Finset.range c.L, c.q i ≠ 0 := fun i hi => by have := H.one i (Finset.mem_range.1 hi); omega
  have pp : Set.Pairwise (Finset.range c.L : Set ℕ) (Function.onFun Nat.Coprime c.q) := fun i hi j hj hij =>
    H.cop i (by simpa using hi) j (by simpa using hj) hij
  refine ⟨Nat.chineseRemainderOfFinset src c.q _ hs pp, Nat.chineseRemainderOfFinset_lt_prod src c.q hs pp, fun l hl => ?_⟩
  exact ((Nat.chineseRemainderOfFinset src c.q _ hs pp).2 l (Finset.mem_range.2 hl)).symm

theorem cmQ_dvd {c : Ctx} (H : CtxOk c) {x : ℤ} (h : ∀ l, l < c.L → (c.q l : ℤ) ∣ x) : (c.Q : ℤ) ∣ x := by
  rw [Ctx.Q, Nat.cast_prod]
  apply Finset.prod_dvd_of_coprime
  · intro i hi j hj hij
    exact Nat.isCoprime_iff_coprime.2 (H.cop i (by simpa using hi) j (by simpa using hj) hij)
  · intro l hl
    exact h l (Finset.mem_range.1 hl)

theorem cmNear_add (a : ℚ) (m : ℤ) : near (a + m) = near a + m := by
  rw [near, near, add_right_comm, Int.floor_add_intCast]

theorem cmToNat_cast (x : ℤ) (k : ℕ) : (((x % 2 ^ k).toNat : ℕ) : ZMod (2 ^ k)) = (x : ZMod (2 ^ k)) := by
  have h : (((x % 2 ^ k).toNat : ℕ) : ℤ) = x % 2 ^ k := Int.toNat_of_nonneg (Int.emod_nonneg _ (by positivity))
  rw [← Int.cast_natCast, h, ZMod.intCast_eq_intCast_iff]
  have := Int.mod_modEq x (2 ^ k)
  push_cast
  exact this

/-- Both results of one element, from the residues of the mask and of the masked product. -/
theorem cmElem {c : Ctx} (H : CtxOk c) {h : Helper} (hh : init c = some h) {srcA srcB : ℕ → ℕ} {V v : ℤ} {B : ℚ} {a b : ℕ}
    (hV : ∀ l, l < c.L → (c.q l : ℤ) ∣ srcB l + srcA l - V) (hB : |(2 : ℚ) ^ c.k * V / c.Q - v| ≤ B)
    (hm : B + 2 * (c.L / c.g) < 1) (ha : down h (bitCeil c.k) srcA = some a) (hb : down h (bitCeil c.k) srcB = some b) :
    a < 2 ^ c.k ∧ b < 2 ^ c.k ∧ ∃ e : ℤ, |e| ≤ 1 ∧ (a : ZMod (2 ^ c.k)) + b = v + e ∧
      ∀ R : ℕ, (∀ l, l < c.L → srcA l % c.q l = R % c.q l) → (Clear c (B + c.L / c.g) R → e = 0) ∧
        ((c.L : ℚ) / c.g ≤ Int.fract ((2 : ℚ) ^ c.k * R / c.Q + 1 / 2) →
          Int.fract ((2 : ℚ) ^ c.k * R / c.Q + 1 / 2) + c.L / c.g ≤ (2 : ℚ) ^ c.k * V / c.Q - v → e = 1) := by
  obtain ⟨R, hR, hRs⟩ := cmCrt H srcA
  obtain ⟨Z, hZ, hZs⟩ := cmCrt H srcB
  obtain ⟨δ₂, p0, p1, p2⟩ := c58_down H hh hRs
  obtain ⟨δ₁, r0, r1, r2⟩ := c58_down H hh hZs
  rw [ha] at p2
  rw [hb] at r2
  have p2 := Option.some.inj p2
  have r2 := Option.some.inj r2
  have hQ : (0 : ℚ) < c.Q := by exact_mod_cast Q_pos H
  obtain ⟨m, hm'⟩ : (c.Q : ℤ) ∣ Z + R - V := cmQ_dvd H fun l hl => by
    have e1 : (c.q l : ℤ) ∣ Z - srcB l := by
      have : (Z : ℤ) ≡ srcB l [ZMOD c.q l] := by
        have := hZs l hl
        unfold Int.ModEq
        exact_mod_cast this.symm
      exact this.symm.dvd
    have e2 : (c.q l : ℤ) ∣ R - srcA l := by
      have : (R : ℤ) ≡ srcA l [ZMOD c.q l] := by
        have := hRs l hl
        unfold Int.ModEq
        exact_mod_cast this.symm
      exact this.symm.dvd
    have := dvd_add (dvd_add e1 e2) (hV l hl)
    have e3 : (Z : ℤ) + R - V = Z - srcB l + (R - srcA l) + (srcB l + srcA l - V) := by ring
    rwa [e3]
  have hZe : (2 : ℚ) ^ c.k * Z / c.Q - δ₁ =
      (v + ((2 : ℚ) ^ c.k * V / c.Q - v) - (2 : ℚ) ^ c.k * R / c.Q - δ₁) + ((2 ^ c.k * m : ℤ) : ℚ) := by
    have : (Z : ℚ) = V - R + c.Q * m := by
      have : (Z : ℤ) = V - R + c.Q * m := by linarith
      exact_mod_cast this
    rw [this]
    push_cast
    field_simp
    ring
  have lt : ∀ x : ℤ, (x % 2 ^ c.k).toNat < 2 ^ c.k := fun x => by
    have h1 := Int.emod_lt_of_pos x (b := 2 ^ c.k) (by positivity)
    have h0 := Int.emod_nonneg x (b := 2 ^ c.k) (by positivity)
    zify
    rw [Int.toNat_of_nonneg h0]
    exact h1
  obtain ⟨e, he, hs, hz, ho⟩ := cmCore (v := v) hB r0 r1 p0 p1 hm (y := (2 : ℚ) ^ c.k * R / c.Q)
  refine ⟨p2 ▸ lt _, r2 ▸ lt _, e, he, ?_, ?_⟩
  · rw [p2, r2, cmToNat_cast, cmToNat_cast, hZe, cmNear_add, ← Int.cast_add, ← Int.cast_add,
      show near ((2 : ℚ) ^ c.k * R / c.Q - δ₂) + (near (v + ((2 : ℚ) ^ c.k * V / c.Q - v) - (2 : ℚ) ^ c.k * R / c.Q - δ₁) +
        2 ^ c.k * m) = v + e + ((2 ^ c.k : ℕ) : ℤ) * m by rw [← hs]; push_cast; ring]
    rw [Int.cast_add _ (((2 ^ c.k : ℕ) : ℤ) * m), Int.cast_mul, Int.cast_natCast, ZMod.natCast_self, zero_mul, add_zero]
  · intro R' hR'
    have hd : (c.Q : ℤ) ∣ R' - R := cmQ_dvd H fun l hl => by
      have : (R : ℤ) ≡ R' [ZMOD c.q l] := by
        have := (hRs l hl).symm.trans (hR' l hl)
        unfold Int.ModEq
        exact_mod_cast this
      exact this.dvd
    obtain ⟨m', e'⟩ := hd
    have : Int.fract ((2 : ℚ) ^ c.k * R' / c.Q + 1 / 2) = Int.fract ((2 : ℚ) ^ c.k * R / c.Q + 1 / 2) := by
      have e2 : (R' : ℚ) = R + c.Q * m' := by
        have : (R' : ℤ) = R + c.Q * m' := by linarith
        exact_mod_cast this
      rw [show (2 : ℚ) ^ c.k * R' / c.Q + 1 / 2 = (2 : ℚ) ^ c.k * R / c.Q + 1 / 2 + ((2 ^ c.k * m' : ℤ) : ℚ) by
        rw [e2]; push_cast; field_simp; ring, Int.fract_add_intCast]
    rw [Clear, this]
    exact ⟨fun hc => hz hc.1 hc.2, ho⟩

/-! ## Arrays of products -/

theorem cmNear_abs (a : ℚ) : |(near a : ℚ) - a| ≤ 1 / 2 := by
  rw [near, abs_le]
  have h1 := Int.floor_le (a + 1 / 2)
  have h2 := Int.lt_floor_add_one (a + 1 / 2)
  constructor <;> linarith

/-- Scaling up, multiplying and scaling down: the error before rounding. -/
theorem cmScale {t Q x C Y : ℚ} (ht : 0 < t) (hQ : 0 < Q) (hC : |C| ≤ Y) :
    |t * (near (Q * x / t) * C) / Q - x * C| ≤ t * Y / (2 * Q) := by
  have e : t * (near (Q * x / t) * C) / Q - x * C = (near (Q * x / t) - Q * x / t) * C * (t / Q) := by
    field_simp
  have hq : 0 ≤ t / Q := by positivity
  rw [e, abs_mul, abs_mul, abs_of_nonneg hq]
  calc _ ≤ 1 / 2 * Y * (t / Q) := by
        apply mul_le_mul_of_nonneg_right _ hq
        exact mul_le_mul (cmNear_abs _) hC (abs_nonneg _) (by norm_num)
    _ = _ := by field_simp

theorem cmToNat_castq (x : ℤ) {q : ℕ} (hq : 0 < q) : (((x % (q : ℤ)).toNat : ℕ) : ZMod q) = (x : ZMod q) := by
  have hq' : (q : ℤ) ≠ 0 := by exact_mod_cast hq.ne'
  have h : (((x % (q : ℤ)).toNat : ℕ) : ℤ) = x % (q : ℤ) := Int.toNat_of_nonneg (Int.emod_nonneg _ hq')
  rw [← Int.cast_natCast, h, ZMod.intCast_eq_intCast_iff]
  exact Int.mod_modEq x q

theorem cmToNat_lt (x : ℤ) {q : ℕ} (hq : 0 < q) : (x % (q : ℤ)).toNat < q := by
  have hq' : (0 : ℤ) < q := by exact_mod_cast hq
  have h0 := Int.emod_nonneg x hq'.ne'
  have h1 := Int.emod_lt_of_pos x hq'
  zify
  rw [Int.toNat_of_nonneg h0]
  exact h1

theorem cmCentred_cast {k x : ℕ} : ((centred k x : ℤ) : ZMod (2 ^ k)) = (x : ZMod (2 ^ k)) := by
  unfold centred
  split_ifs
  · have : ((2 ^ k : ℕ) : ZMod (2 ^ k)) = 0 := ZMod.natCast_self _
    push_cast at this ⊢
    rw [this, sub_zero]
  · simp

/-- The slots of an encoded array. -/
theorem cmEncodeUp {c : Ctx} (H : CtxOk c) {h : Helper} (hh : init c = some h) (hf : ∀ l, l < c.L → UpFits c l) {N n : ℕ}
    (hN : 0 < N) {x : ℕ → ℕ} (hx : ∀ i, i < n → x i < 2 ^ c.k) :
    ∃ E, encode h (bitCeil c.k) N n true x = some E ∧ ∀ l, l < c.L → ∀ i, i < n →
      (E (l * splits N n + i / N) (i % N) : ZMod (c.q l)) = (near ((c.Q : ℚ) * x i / 2 ^ c.k) : ℤ) := by
  obtain ⟨h', e, K⟩ := init_ok H
  obtain rfl : h = h' := by rw [hh] at e; exact Option.some.inj e
  obtain ⟨E, eE, hE⟩ := cmEncode_ok (h := h) (w := bitCeil c.k) (n := n) (up := true) (array := x)
    (val := fun l i => (near ((c.Q : ℚ) * x i / 2 ^ c.k) % (c.q l : ℤ)).toNat) hN (by
      rw [K.ctx]
      intro l hl i hi
      exact ⟨c58_up H hh hl (hx i hi) (hf l hl), cmToNat_lt _ (by have := H.one l hl; omega)⟩)
  rw [K.ctx] at hE
  exact ⟨E, eE, fun l hl i hi => by rw [hE l hl i hi, cmToNat_castq _ (by have := H.one l hl; omega)]⟩

theorem cmEncodeCentre {c : Ctx} (H : CtxOk c) {h : Helper} (hh : init c = some h) {N n : ℕ}
    (hN : 0 < N) {x : ℕ → ℕ} (hx : ∀ i, i < n → x i < 2 ^ c.k) :
    ∃ E, encode h (bitCeil c.k) N n false x = some E ∧ ∀ l, l < c.L → ∀ i, i < n →
      (E (l * splits N n + i / N) (i % N) : ZMod (c.q l)) = (centred c.k (x i) : ℤ) := by
  obtain ⟨h', e, K⟩ := init_ok H
  obtain rfl : h = h' := by rw [hh] at e; exact Option.some.inj e
  obtain ⟨E, eE, hE⟩ := cmEncode_ok (h := h) (w := bitCeil c.k) (n := n) (up := false) (array := x)
    (val := fun l i => (centred c.k (x i) % (c.q l : ℤ)).toNat) hN (by
      rw [K.ctx]
      intro l hl i hi
      exact ⟨c58_centre H hh hl (hx i hi), cmToNat_lt _ (by have := H.one l hl; omega)⟩)
  rw [K.ctx] at hE
  exact ⟨E, eE, fun l hl i hi => by rw [hE l hl i hi, cmToNat_castq _ (by have := H.one l hl; omega)]⟩

/-- From products in the slots to the two results, with the error before rounding. -/
theorem cmReshare_spec {c : Ctx} (H : CtxOk c) {h : Helper} (hh : init c = some h) {N n : ℕ} (hN : 0 < N)
    {prod rnd : ℕ → ℕ → ℕ} (hr : ∀ l, l < c.L → ∀ i, i < n → rnd l i < c.q l) {V v : ℕ → ℤ} {B : ℚ}
    (hV : ∀ l, l < c.L → ∀ i, i < n → (prod (l * splits N n + i / N) (i % N) : ZMod (c.q l)) = (V i : ZMod (c.q l)))
    (hB : ∀ i, i < n → |(2 : ℚ) ^ c.k * V i / c.Q - v i| ≤ B) (hm : B + 2 * (c.L / c.g) < 1) :
    ∃ a b, reshare h (bitCeil c.k) N n prod rnd = some (a, b) ∧ ∀ i, i < n → a i < 2 ^ c.k ∧ b i < 2 ^ c.k ∧
      ∃ e : ℤ, |e| ≤ 1 ∧ (a i : ZMod (2 ^ c.k)) + b i = v i + e ∧
      ∀ R : ℕ, (∀ l, l < c.L → rnd l i % c.q l = R % c.q l) → (Clear c (B + c.L / c.g) R → e = 0) ∧
        ((c.L : ℚ) / c.g ≤ Int.fract ((2 : ℚ) ^ c.k * R / c.Q + 1 / 2) →
          Int.fract ((2 : ℚ) ^ c.k * R / c.Q + 1 / 2) + c.L / c.g ≤ (2 : ℚ) ^ c.k * V i / c.Q - v i → e = 1) := by
  obtain ⟨h', e, K⟩ := init_ok H
  obtain rfl : h = h' := by rw [hh] at e; exact Option.some.inj e
  obtain ⟨a, b, eR, hab⟩ := cmReshare_ok (h := h) (w := bitCeil c.k) (N := N) (n := n) hN (prod := prod) (rnd := rnd)
    (by rw [K.ctx]; exact hr) (by rw [K.ctx])
  rw [K.ctx] at hab
  refine ⟨a, b, eR, fun i hi => ?_⟩
  obtain ⟨⟨sA, hA, dA⟩, sB, hBs, dB⟩ := hab i hi
  obtain ⟨r1, r2, e, he, hs, hz⟩ := cmElem H hh (V := V i) (v := v i) (B := B) (srcA := sA) (srcB := sB) (by
    intro l hl
    rw [hA l hl, hBs l hl, ← ZMod.intCast_zmod_eq_zero_iff_dvd]
    simp only [Int.cast_sub, Int.cast_add, Int.cast_natCast, ZMod.natCast_mod, Nat.cast_add]
    rw [hV l hl i hi, Nat.cast_sub (hr l hl i hi).le, ZMod.natCast_self]
    ring) (hB i hi) hm dA dB
  exact ⟨r1, r2, e, he, hs, fun R hR => hz R fun l hl => by rw [hA l hl]; exact hR l hl⟩

/-- `MulOLE` with its error before rounding. -/
theorem cmOLE {c : Ctx} (H : CtxOk c) {h : Helper} (hh : init c = some h) (hf : ∀ l, l < c.L → UpFits c l) {N n : ℕ}
    (hN : 0 < N) (hn : 0 < n) {x y : ℕ → ℕ} (hx : ∀ i, i < n → x i < 2 ^ c.k) (hy : ∀ i, i < n → y i < 2 ^ c.k) {Y : ℚ}
    (hY : ∀ i, i < n → |(centred c.k (y i) : ℚ)| ≤ Y) (hm : 2 ^ c.k * Y / (2 * c.Q) + 2 * (c.L / c.g) < 1)
    {rnd : ℕ → ℕ → ℕ} (hr : ∀ l, l < c.L → ∀ i, i < n → rnd l i < c.q l) :
    ∃ a b, mulOLE h (bitCeil c.k) N n x y rnd = some (a, b) ∧ ∀ i, i < n → a i < 2 ^ c.k ∧ b i < 2 ^ c.k ∧
      ∃ e : ℤ, |e| ≤ 1 ∧ (a i : ZMod (2 ^ c.k)) + b i = x i * y i + e ∧
      ∀ R : ℕ, (∀ l, l < c.L → rnd l i % c.q l = R % c.q l) →
        (Clear c (2 ^ c.k * Y / (2 * c.Q) + c.L / c.g) R → e = 0) ∧
        ((c.L : ℚ) / c.g ≤ Int.fract ((2 : ℚ) ^ c.k * R / c.Q + 1 / 2) →
          Int.fract ((2 : ℚ) ^ c.k * R / c.Q + 1 / 2) + c.L / c.g ≤
            (2 : ℚ) ^ c.k * (near ((c.Q : ℚ) * x i / 2 ^ c.k) * centred c.k (y i) : ℤ) / c.Q -
              (x i * centred c.k (y i) : ℤ) → e = 1) := by
  have hQ : (0 : ℚ) < c.Q := by exact_mod_cast Q_pos H
  obtain ⟨py, ey, hpy⟩ := cmEncodeCentre H hh hN hy
  obtain ⟨cx, ex, hcx⟩ := cmEncodeUp H hh hf hN hx
  obtain ⟨a, b, eR, hab⟩ := cmReshare_spec H hh hN hr (prod := fun job i => cx job i * py job i)
    (V := fun i => near ((c.Q : ℚ) * x i / 2 ^ c.k) * centred c.k (y i)) (v := fun i => x i * centred c.k (y i))
    (B := 2 ^ c.k * Y / (2 * c.Q))
    (by intro l hl i hi; push_cast; rw [hcx l hl i hi, hpy l hl i hi])
    (by
      intro i hi
      have := cmScale (t := 2 ^ c.k) (x := x i) (by positivity) hQ (hY i hi)
      push_cast
      exact this) hm
  refine ⟨a, b, ?_, fun i hi => ?_⟩
  · unfold mulOLE
    rw [guard_bind hn, ey, Option.bind_eq_bind, Option.bind_some, ex, Option.bind_some, eR]
  · obtain ⟨r1, r2, e, he, hs, hz⟩ := hab i hi
    refine ⟨r1, r2, e, he, ?_, hz⟩
    rw [hs]
    push_cast
    rw [cmCentred_cast]

/-- `MulOLE` computes shares of the products, up to one unit; exactly when the mask is clear of the rounding points. -/
theorem c59_mulOLE {c : Ctx} (H : CtxOk c) {h : Helper} (hh : init c = some h) (hf : ∀ l, l < c.L → UpFits c l) {N n : ℕ}
    (hN : 0 < N) (hn : 0 < n) {x y : ℕ → ℕ} (hx : ∀ i, i < n → x i < 2 ^ c.k) (hy : ∀ i, i < n → y i < 2 ^ c.k) {Y : ℚ}
    (hY : ∀ i, i < n → |(centred c.k (y i) : ℚ)| ≤ Y) (hm : 2 ^ c.k * Y / (2 * c.Q) + 2 * (c.L / c.g) < 1)
    {rnd : ℕ → ℕ → ℕ} (hr : ∀ l, l < c.L → ∀ i, i < n → rnd l i < c.q l) :
    ∃ a b, mulOLE h (bitCeil c.k) N n x y rnd = some (a, b) ∧ ∀ i, i < n → a i < 2 ^ c.k ∧ b i < 2 ^ c.k ∧
      (∃ e : ℤ, |e| ≤ 1 ∧ (a i : ZMod (2 ^ c.k)) + b i = x i * y i + e) ∧
      ∀ R : ℕ, (∀ l, l < c.L → rnd l i % c.q l = R % c.q l) →
        Clear c (2 ^ c.k * Y / (2 * c.Q) + c.L / c.g) R → (a i : ZMod (2 ^ c.k)) + b i = x i * y i := by
  obtain ⟨a, b, e1, hab⟩ := cmOLE H hh hf hN hn hx hy hY hm hr
  refine ⟨a, b, e1, fun i hi => ?_⟩
  obtain ⟨r1, r2, e, he, hs, hz⟩ := hab i hi
  refine ⟨r1, r2, ⟨e, he, hs⟩, fun R hR hc => ?_⟩
  rw [hs, (hz R hR).1 hc]
  simp

/-- `MulShare` computes shares of the products of the shared values, up to one unit; exactly when the mask is clear. -/
theorem c59_mulShare {c : Ctx} (H : CtxOk c) {h : Helper} (hh : init c = some h) (hf : ∀ l, l < c.L → UpFits c l)
    {N n : ℕ} (hN : 0 < N) (hn : 0 < n) {x0 y0 x1 y1 : ℕ → ℕ} (hx0 : ∀ i, i < n → x0 i < 2 ^ c.k)
    (hy0 : ∀ i, i < n → y0 i < 2 ^ c.k) (hx1 : ∀ i, i < n → x1 i < 2 ^ c.k) (hy1 : ∀ i, i < n → y1 i < 2 ^ c.k) {Y : ℚ}
    (hX : ∀ i, i < n → |(centred c.k (x0 i) : ℚ)| ≤ Y) (hY : ∀ i, i < n → |(centred c.k (y0 i) : ℚ)| ≤ Y)
    (hm : 2 ^ c.k * Y / c.Q + 2 * (c.L / c.g) < 1)
    {rnd : ℕ → ℕ → ℕ} (hr : ∀ l, l < c.L → ∀ i, i < n → rnd l i < c.q l) :
    ∃ a b, mulShare h (bitCeil c.k) N n x0 y0 x1 y1 rnd = some (a, b) ∧ ∀ i, i < n →
      a i < 2 ^ bitCeil c.k ∧ b i < 2 ^ bitCeil c.k ∧
      (∃ e : ℤ, |e| ≤ 1 ∧ (a i : ZMod (2 ^ c.k)) + b i = (x0 i + x1 i) * (y0 i + y1 i) + e) ∧
      ∀ R : ℕ, (∀ l, l < c.L → rnd l i % c.q l = R % c.q l) →
        Clear c (2 ^ c.k * Y / c.Q + c.L / c.g) R → (a i : ZMod (2 ^ c.k)) + b i = (x0 i + x1 i) * (y0 i + y1 i) := by
  have hQ : (0 : ℚ) < c.Q := by exact_mod_cast Q_pos H
  obtain ⟨px, ex0, hpx⟩ := cmEncodeCentre H hh hN hx0
  obtain ⟨py, ey0, hpy⟩ := cmEncodeCentre H hh hN hy0
  obtain ⟨cx, ex1, hcx⟩ := cmEncodeUp H hh hf hN hx1
  obtain ⟨cy, ey1, hcy⟩ := cmEncodeUp H hh hf hN hy1
  obtain ⟨a, b, eR, hab⟩ := cmReshare_spec H hh hN hr
    (prod := fun job i => cx job i * py job i + cy job i * px job i)
    (V := fun i => near ((c.Q : ℚ) * x1 i / 2 ^ c.k) * centred c.k (y0 i) +
      near ((c.Q : ℚ) * y1 i / 2 ^ c.k) * centred c.k (x0 i))
    (v := fun i => x1 i * centred c.k (y0 i) + y1 i * centred c.k (x0 i))
    (B := 2 ^ c.k * Y / c.Q)
    (by intro l hl i hi; push_cast; rw [hcx l hl i hi, hpy l hl i hi, hcy l hl i hi, hpx l hl i hi])
    (by
      intro i hi
      have h1 := cmScale (t := 2 ^ c.k) (x := x1 i) (by positivity) hQ (hY i hi)
      have h2 := cmScale (t := 2 ^ c.k) (x := y1 i) (by positivity) hQ (hX i hi)
      push_cast
      have e : (2 : ℚ) ^ c.k * Y / c.Q = 2 ^ c.k * Y / (2 * c.Q) + 2 ^ c.k * Y / (2 * c.Q) := by field_simp; ring
      rw [e, mul_add, add_div, add_sub_add_comm]
      exact (abs_add_le _ _).trans (add_le_add h1 h2)) hm
  refine ⟨fun i => (a i + x0 i * y0 i) % 2 ^ bitCeil c.k, fun i => (b i + x1 i * y1 i) % 2 ^ bitCeil c.k, ?_,
    fun i hi => ⟨Nat.mod_lt _ (by positivity), Nat.mod_lt _ (by positivity), ?_⟩⟩
  · unfold mulShare
    rw [guard_bind hn, ex0, Option.bind_eq_bind, Option.bind_some, ey0, Option.bind_some, ex1, Option.bind_some, ey1,
      Option.bind_some, eR]
    rfl
  · obtain ⟨r1, r2, e, he, hs, hz⟩ := hab i hi
    have key : (((a i + x0 i * y0 i) % 2 ^ bitCeil c.k : ℕ) : ZMod (2 ^ c.k)) +
        ((b i + x1 i * y1 i) % 2 ^ bitCeil c.k : ℕ) = (x0 i + x1 i) * (y0 i + y1 i) + e := by
      rw [cast_mod_pow (le_bitCeil _), cast_mod_pow (le_bitCeil _)]
      push_cast at hs ⊢
      rw [cmCentred_cast, cmCentred_cast] at hs
      linear_combination hs
    refine ⟨⟨e, he, key⟩, fun R hR hc => ?_⟩
    rw [key, (hz R hR).1 hc]
    simp

/-! ## How many masks are not clear -/

/-- Every choice of residues below the moduli is the residues of exactly one mask below `Q`. -/
theorem c59_mask_unique {c : Ctx} (H : CtxOk c) (r : ℕ → ℕ) :
    ∃! R, R < c.Q ∧ ∀ l, l < c.L → r l % c.q l = R % c.q l := by
  obtain ⟨R, hR, h⟩ := cmCrt H r
  refine ⟨R, ⟨hR, h⟩, fun R' ⟨hR', h'⟩ => ?_⟩
  have hd : (c.Q : ℤ) ∣ R' - R := cmQ_dvd H fun l hl => by
    have : (R : ℤ) ≡ R' [ZMOD c.q l] := by
      have := (h l hl).symm.trans (h' l hl)
      unfold Int.ModEq
      exact_mod_cast this
    exact this.dvd
  have : R ≡ R' [MOD c.Q] := by
    rw [← Int.natCast_modEq_iff]
    exact Int.modEq_iff_dvd.2 hd
  exact (this.eq_of_lt_of_lt hR hR').symm

theorem cmFract {c : Ctx} (H : CtxOk c) (R : ℕ) :
    Int.fract ((2 : ℚ) ^ c.k * R / c.Q + 1 / 2) = (2 * ((2 ^ c.k * R + c.Q / 2) % c.Q : ℕ) + 1) / (2 * c.Q) := by
  have hQ := Q_pos H
  have hQ' : (0 : ℚ) < c.Q := by exact_mod_cast hQ
  have ho := Q_odd H
  set m := (2 ^ c.k * R + c.Q / 2) % c.Q with hm
  set d := (2 ^ c.k * R + c.Q / 2) / c.Q with hd
  have e : c.Q * d + m = 2 ^ c.k * R + c.Q / 2 := Nat.div_add_mod _ _
  have lt : m < c.Q := Nat.mod_lt _ hQ
  have e2 : 2 * c.Q * d + (2 * m + 1) = 2 * 2 ^ c.k * R + c.Q := by
    have : 2 * (c.Q / 2) + 1 = c.Q := by omega
    calc _ = 2 * (c.Q * d + m) + 1 := by ring
      _ = 2 * (2 ^ c.k * R) + (2 * (c.Q / 2) + 1) := by rw [e]; ring
      _ = _ := by rw [this]; ring
  have e3 : (2 * c.Q * d + (2 * m + 1) : ℚ) = 2 * 2 ^ c.k * R + c.Q := by exact_mod_cast e2
  rw [Int.fract_eq_iff]
  refine ⟨by positivity, ?_, d, ?_⟩
  · rw [div_lt_one (by positivity)]
    have : 2 * m + 1 < 2 * c.Q := by omega
    exact_mod_cast this
  · push_cast
    field_simp
    linarith

/-- At most `2 β Q + 1` of the `Q` masks are not clear by `β`. -/
theorem c59_masks {c : Ctx} (H : CtxOk c) {β : ℚ} (hβ : 0 ≤ β) :
    ∃ bad : Finset ℕ, (bad.card : ℚ) ≤ 2 * β * c.Q + 1 ∧ ∀ R, R < c.Q → ¬ Clear c β R → R ∈ bad := by
  classical
  have hQ := Q_pos H
  have hQ' : (0 : ℚ) < c.Q := by exact_mod_cast hQ
  refine ⟨(Finset.range c.Q).filter fun R => ¬ Clear c β R, ?_, fun R h1 h2 => by simp [h1, h2]⟩
  set K := ⌊c.Q * β + 1 / 2⌋₊ with hK
  set f : ℕ → ℕ := fun R => (2 ^ c.k * R + c.Q / 2) % c.Q with hf
  have cop : Nat.Coprime c.Q (2 ^ c.k) :=
    (Nat.Coprime.pow_right _ (Nat.coprime_two_right.2 (Nat.odd_iff.2 (Q_odd H))))
  have inj : Set.InjOn f ((Finset.range c.Q).filter fun R => ¬ Clear c β R) := by
    intro a ha b hb hab
    have ha : a < c.Q := (Finset.mem_range.1 (Finset.mem_filter.1 ha).1)
    have hb : b < c.Q := (Finset.mem_range.1 (Finset.mem_filter.1 hb).1)
    have h1 : 2 ^ c.k * a + c.Q / 2 ≡ 2 ^ c.k * b + c.Q / 2 [MOD c.Q] := hab
    have h2 := Nat.ModEq.add_right_cancel' _ h1
    exact (Nat.ModEq.cancel_left_of_coprime cop h2).eq_of_lt_of_lt ha hb
  have sub : ((Finset.range c.Q).filter fun R => ¬ Clear c β R).image f ⊆
      Finset.range K ∪ (Finset.range K).image fun m => c.Q - 1 - m := by
    intro m hm
    obtain ⟨R, hR, rfl⟩ := Finset.mem_image.1 hm
    obtain ⟨hR, hc⟩ := Finset.mem_filter.1 hR
    have lt : f R < c.Q := Nat.mod_lt _ hQ
    rw [Clear, cmFract H, not_and_or, not_le, not_le] at hc
    change (2 * ((f R : ℕ) : ℚ) + 1) / (2 * c.Q) < β ∨ 1 - β < (2 * ((f R : ℕ) : ℚ) + 1) / (2 * c.Q) at hc
    generalize f R = m at *
    rw [Finset.mem_union]
    rcases hc with hc | hc
    · left
      rw [div_lt_iff₀ (by positivity)] at hc
      rw [Finset.mem_range, ← Nat.succ_le_iff, hK, Nat.le_floor_iff (by positivity)]
      push_cast
      linarith
    · right
      rw [lt_div_iff₀ (by positivity)] at hc
      refine Finset.mem_image.2 ⟨c.Q - 1 - m, ?_, by omega⟩
      rw [Finset.mem_range, ← Nat.succ_le_iff, hK, Nat.le_floor_iff (by positivity)]
      have : c.Q - 1 - m + 1 = c.Q - m := by omega
      rw [Nat.succ_eq_add_one, this, Nat.cast_sub lt.le]
      linarith
  have h1 := Finset.card_le_card sub
  rw [Finset.card_image_of_injOn inj] at h1
  have h2 : (Finset.range K ∪ (Finset.range K).image fun m => c.Q - 1 - m).card ≤ K + K := by
    refine (Finset.card_union_le _ _).trans (add_le_add (Finset.card_range K).le ?_)
    exact Finset.card_image_le.trans (Finset.card_range K).le
  have h3 : (K : ℚ) ≤ c.Q * β + 1 / 2 := Nat.floor_le (by positivity)
  have h4 : ((((Finset.range c.Q).filter fun R => ¬ Clear c β R).card : ℕ) : ℚ) ≤ K + K := by exact_mod_cast h1.trans h2
  linarith

/-! ## The moduli of the program -/

/-- The moduli for a ring of `ring` bits and messages of `msg` bits (cheetah_mul.cc:209-235, 268-292). -/
def mulCtx (lsb : Bool) (ring msg : ℕ) : Ctx :=
  ctxOf ring 2305843009213554689 ((if lsb then mulModuliLsb else mulModuli).take (workingSize lsb ring msg))

/-- For every ring and every message length the moduli meet the hypotheses of `c59_mulOLE` and `c59_mulShare`, and the
sum of both error terms is below `2^-30`; `2^-50` for messages as wide as the ring.  When errors in the last bit are
allowed, these are `2^-3` and `2^-12`. -/
theorem c59_moduli (lsb : Bool) {ring msg : ℕ} (hr : ring ∈ [32, 64, 128]) (h0 : 0 < msg) (h1 : msg ≤ ring) :
    (mulCtx lsb ring msg).L = workingSize lsb ring msg ∧ CtxOk (mulCtx lsb ring msg) ∧
    (∀ l, l < (mulCtx lsb ring msg).L → UpFits (mulCtx lsb ring msg) l) ∧
    (2 : ℚ) ^ ring * 2 ^ (msg - 1) / (mulCtx lsb ring msg).Q +
      2 * ((mulCtx lsb ring msg).L / (mulCtx lsb ring msg).g) ≤
      1 / 2 ^ (if lsb then (if msg = ring then 12 else 3) else if msg = ring then 50 else 30) := by
  have t : ∀ lsb : Bool, ∀ ring ∈ [32, 64, 128], ∀ msg ∈ List.range 129, 0 < msg → msg ≤ ring →
      (mulCtx lsb ring msg).L = workingSize lsb ring msg ∧ ctxTest (mulCtx lsb ring msg) = true ∧
      (∀ l, l < (mulCtx lsb ring msg).L → (mulCtx lsb ring msg).Q % 2 ^ (mulCtx lsb ring msg).k +
        (mulCtx lsb ring msg).q l ≤ if (mulCtx lsb ring msg).k ≤ 64 then 2 ^ 64 else 2 ^ 128) ∧
      (2 ^ ring * 2 ^ (msg - 1) * (mulCtx lsb ring msg).g + 2 * (mulCtx lsb ring msg).L * (mulCtx lsb ring msg).Q) *
        2 ^ (if lsb then (if msg = ring then 12 else 3) else if msg = ring then 50 else 30) ≤
        (mulCtx lsb ring msg).Q * (mulCtx lsb ring msg).g := by
    decide +kernel
  have hm : msg ∈ List.range 129 := by
    rw [List.mem_range]
    simp only [List.mem_cons, List.not_mem_nil, or_false] at hr
    omega
  obtain ⟨a1, a2, a3, a4⟩ := t lsb ring hr msg hm h0 h1
  have H := ctxTest_ok a2
  refine ⟨a1, H, a3, ?_⟩
  have hQ : (0 : ℚ) < (mulCtx lsb ring msg).Q := by exact_mod_cast Q_pos H
  have hg : (0 : ℚ) < (mulCtx lsb ring msg).g := by have := H.gone; exact_mod_cast (by omega : 0 < (mulCtx lsb ring msg).g)
  generalize (if lsb then (if msg = ring then 12 else 3) else if msg = ring then 50 else 30) = z at *
  rw [le_div_iff₀ (by positivity)]
  have a5 : ((2 : ℚ) ^ ring * 2 ^ (msg - 1) * (mulCtx lsb ring msg).g +
      2 * (mulCtx lsb ring msg).L * (mulCtx lsb ring msg).Q) * 2 ^ z ≤
      (mulCtx lsb ring msg).Q * (mulCtx lsb ring msg).g := by exact_mod_cast a4
  have e : ((2 : ℚ) ^ ring * 2 ^ (msg - 1) / (mulCtx lsb ring msg).Q +
      2 * ((mulCtx lsb ring msg).L / (mulCtx lsb ring msg).g)) * 2 ^ z =
      ((2 : ℚ) ^ ring * 2 ^ (msg - 1) * (mulCtx lsb ring msg).g +
      2 * (mulCtx lsb ring msg).L * (mulCtx lsb ring msg).Q) * 2 ^ z /
      ((mulCtx lsb ring msg).Q * (mulCtx lsb ring msg).g) := by field_simp
  rw [e, div_le_one (by positivity)]
  exact a5

theorem cmCentred_abs {k x : ℕ} (hk : 0 < k) (hx : x < 2 ^ k) : |(centred k x : ℚ)| ≤ 2 ^ (k - 1) := by
  have e : 2 ^ k = 2 * 2 ^ (k - 1) := by rw [← pow_succ']; congr 1; omega
  have : |centred k x| ≤ 2 ^ (k - 1) := by
    unfold centred
    have e' : (2 : ℤ) ^ k = 2 * 2 ^ (k - 1) := by exact_mod_cast e
    split_ifs with h
    · rw [abs_le, e']
      have h1 : (2 : ℤ) ^ (k - 1) < x := by exact_mod_cast h
      have h2 : (x : ℤ) < 2 * 2 ^ (k - 1) := by rw [← e']; exact_mod_cast hx
      constructor <;> linarith
    · rw [abs_of_nonneg (by positivity)]
      exact_mod_cast not_lt.1 h
  exact_mod_cast this

theorem cmClear_mono {c : Ctx} {β β' : ℚ} (h : β' ≤ β) {R : ℕ} (hc : Clear c β R) : Clear c β' R :=
  ⟨h.trans hc.1, hc.2.trans (by linarith)⟩

/-- With the moduli of the program there is a small set of masks, a fraction of at most `2^-48` of all (`2^-10` when
errors in the last bit are allowed), outside which both multiplications are exact for all inputs. -/
theorem c59_rate (lsb : Bool) {ring : ℕ} (hr : ring ∈ [32, 64, 128]) : ∃ h, init (mulCtx lsb ring ring) = some h ∧
    ∃ bad : Finset ℕ, bad.card * 2 ^ (if lsb then 10 else 48) ≤ (mulCtx lsb ring ring).Q ∧
    ∀ (N n : ℕ), 0 < N → 0 < n → ∀ R : ℕ → ℕ, (∀ i, i < n → R i < (mulCtx lsb ring ring).Q ∧ R i ∉ bad) →
      (∀ x y : ℕ → ℕ, (∀ i, i < n → x i < 2 ^ ring) → (∀ i, i < n → y i < 2 ^ ring) →
        ∃ a b, mulOLE h (bitCeil ring) N n x y (fun l i => R i % (mulCtx lsb ring ring).q l) = some (a, b) ∧
          ∀ i, i < n → (a i : ZMod (2 ^ ring)) + b i = x i * y i) ∧
      (∀ x0 y0 x1 y1 : ℕ → ℕ, (∀ i, i < n → x0 i < 2 ^ ring) → (∀ i, i < n → y0 i < 2 ^ ring) →
        (∀ i, i < n → x1 i < 2 ^ ring) → (∀ i, i < n → y1 i < 2 ^ ring) →
        ∃ a b, mulShare h (bitCeil ring) N n x0 y0 x1 y1 (fun l i => R i % (mulCtx lsb ring ring).q l) = some (a, b) ∧
          ∀ i, i < n → (a i : ZMod (2 ^ ring)) + b i = (x0 i + x1 i) * (y0 i + y1 i)) := by
  have hr0 : 0 < ring := by
    simp only [List.mem_cons, List.not_mem_nil, or_false] at hr
    omega
  obtain ⟨-, H, hf, hm⟩ := c59_moduli lsb hr hr0 le_rfl
  obtain ⟨h, hh, K⟩ := init_ok H
  have hk : (mulCtx lsb ring ring).k = ring := rfl
  rw [if_pos rfl, if_pos rfl] at hm
  have hQ1 : 2 ^ (if lsb = true then 12 else 50) ≤ (mulCtx lsb ring ring).Q := by
    have : ∀ lsb : Bool, ∀ ring ∈ [32, 64, 128], 2 ^ (if lsb = true then 12 else 50) ≤ (mulCtx lsb ring ring).Q := by
      decide +kernel
    exact this lsb ring hr
  generalize hc : mulCtx lsb ring ring = c at *
  have hQ : (0 : ℚ) < c.Q := by exact_mod_cast Q_pos H
  have hL : (0 : ℚ) ≤ c.L / c.g := by positivity
  have hB : (0 : ℚ) ≤ 2 ^ ring * 2 ^ (ring - 1) / c.Q := by positivity
  obtain ⟨bad, hbad, hclear⟩ := c59_masks H (β := 2 ^ ring * 2 ^ (ring - 1) / c.Q + c.L / c.g) (by positivity)
  refine ⟨h, hh, bad, ?_, ?_⟩
  · have hz : (2 : ℚ) ^ (if lsb then 10 else 48) * 4 = 2 ^ (if lsb = true then 12 else 50) := by
      cases lsb <;> norm_num
    have hz0 : (0 : ℚ) < 2 ^ (if lsb = true then 10 else 48) := by positivity
    have hQ1' : (2 : ℚ) ^ (if lsb = true then 12 else 50) ≤ c.Q := by exact_mod_cast hQ1
    rw [← hz] at hm hQ1'
    have goal : (bad.card : ℚ) * 2 ^ (if lsb = true then 10 else 48) ≤ c.Q := ?_
    · exact_mod_cast goal
    generalize (2 : ℚ) ^ (if lsb = true then 10 else 48) = w at *
    have h2 : 2 ^ ring * 2 ^ (ring - 1) / c.Q + c.L / c.g ≤ 1 / (w * 4) := by linarith
    have h3 : (bad.card : ℚ) ≤ 2 * (1 / (w * 4)) * c.Q + 1 := hbad.trans (by
      have := mul_le_mul_of_nonneg_right h2 hQ.le
      linarith)
    have h4 := mul_le_mul_of_nonneg_right h3 hz0.le
    have h5 : (2 * (1 / (w * 4)) * c.Q + 1) * w = c.Q / 2 + w := by field_simp; ring
    linarith
  · have h1 : (1 : ℚ) / 2 ^ (if lsb = true then 12 else 50) < 1 := by cases lsb <;> norm_num
    have half : (2 : ℚ) ^ ring * 2 ^ (ring - 1) / (2 * c.Q) ≤ 2 ^ ring * 2 ^ (ring - 1) / c.Q := by
      apply div_le_div_of_nonneg_left (by positivity) hQ
      linarith
    intro N n hN hn R hR
    have hrnd : ∀ l, l < c.L → ∀ i, i < n → R i % c.q l < c.q l := fun l hl i _ =>
      Nat.mod_lt _ (by have := H.one l hl; omega)
    have hcl : ∀ i, i < n → Clear c (2 ^ ring * 2 ^ (ring - 1) / c.Q + c.L / c.g) (R i) := fun i hi => by
      by_contra hn
      exact (hR i hi).2 (hclear _ (hR i hi).1 hn)
    have cen : ∀ x : ℕ → ℕ, (∀ i, i < n → x i < 2 ^ ring) → ∀ i, i < n → |(centred c.k (x i) : ℚ)| ≤ 2 ^ (ring - 1) :=
      fun x hx i hi => by rw [hk]; exact cmCentred_abs hr0 (hx i hi)
    constructor
    · intro x y hx hy
      obtain ⟨a, b, e, hab⟩ := c59_mulOLE H hh hf hN hn (x := x) (y := y) (by rw [hk]; exact hx) (by rw [hk]; exact hy)
        (cen y hy) (by rw [hk]; linarith) (rnd := fun l i => R i % c.q l) hrnd
      rw [hk] at e hab
      exact ⟨a, b, e, fun i hi => (hab i hi).2.2.2 (R i) (fun l _ => Nat.mod_mod _ _)
        (cmClear_mono (by linarith) (hcl i hi))⟩
    · intro x0 y0 x1 y1 hx0 hy0 hx1 hy1
      obtain ⟨a, b, e, hab⟩ := c59_mulShare H hh hf hN hn (x0 := x0) (y0 := y0) (x1 := x1) (y1 := y1)
        (by rw [hk]; exact hx0) (by rw [hk]; exact hy0) (by rw [hk]; exact hx1) (by rw [hk]; exact hy1)
        (cen x0 hx0) (cen y0 hy0) (by rw [hk]; linarith) (rnd := fun l i => R i % c.q l) hrnd
      rw [hk] at e hab
      exact ⟨a, b, e, fun i hi => (hab i hi).2.2.2 (R i) (fun l _ => Nat.mod_mod _ _) (hcl i hi)⟩

/-! ## An error of one unit occurs -/

/-- A mask on which the 64-bit multiplication is wrong. -/
def badMask : ℕ := 282634774176277760666173795831679115205719937920494841

/-- With the moduli of the program and messages as wide as the ring there are inputs and a mask for which the shares
do not add up to the product. -/
theorem c59_not_exact : ∃ h, init (mulCtx false 64 64) = some h ∧
    ∃ a b, mulOLE h (bitCeil 64) 8192 1 (fun _ => 11642558788483891201) (fun _ => 2 ^ 63)
      (fun l _ => badMask % (mulCtx false 64 64).q l) = some (a, b) ∧
    (a 0 : ZMod (2 ^ 64)) + b 0 = (11642558788483891201 : ℕ) * (2 ^ 63 : ℕ) + 1 := by
  obtain ⟨-, H, hf, hm⟩ := c59_moduli false (ring := 64) (msg := 64) (by decide) (by decide) (by decide)
  obtain ⟨h, hh, K⟩ := init_ok H
  have hQ : (0 : ℚ) < (mulCtx false 64 64).Q := by exact_mod_cast Q_pos H
  have hL : (0 : ℚ) ≤ (mulCtx false 64 64).L / (mulCtx false 64 64).g := by positivity
  obtain ⟨a, b, e1, hab⟩ := cmOLE H hh hf (N := 8192) (n := 1) (by decide) (by decide)
    (x := fun _ => 11642558788483891201) (y := fun _ => 2 ^ 63) (fun _ _ => by decide +kernel) (fun _ _ => by decide +kernel)
    (Y := 2 ^ 63) (fun _ _ => by
      rw [show centred (mulCtx false 64 64).k (2 ^ 63) = 2 ^ 63 by decide +kernel]
      norm_num)
    (by
      change (2 : ℚ) ^ 64 * 2 ^ (64 - 1) / _ + _ ≤ 1 / 2 ^ 50 at hm
      change (2 : ℚ) ^ 64 * 2 ^ 63 / (2 * _) + _ < 1
      have : (2 : ℚ) ^ 64 * 2 ^ 63 / (2 * (mulCtx false 64 64).Q) ≤ 2 ^ 64 * 2 ^ (64 - 1) / (mulCtx false 64 64).Q := by
        apply div_le_div_of_nonneg_left (by positivity) hQ
        linarith
      have h2 : (1 : ℚ) / 2 ^ 50 < 1 := by norm_num
      linarith)
    (rnd := fun l _ => badMask % (mulCtx false 64 64).q l)
    (fun l hl _ _ => Nat.mod_lt _ (by have := H.one l hl; omega))
  refine ⟨h, hh, a, b, e1, ?_⟩
  obtain ⟨-, -, e, -, hs, hz⟩ := hab 0 (by decide)
  have hk : (mulCtx false 64 64).k = 64 := rfl
  have vQ : (mulCtx false 64 64).Q = 1532495405991160461137926691776000241633646196282146817 := by decide +kernel
  have vL : (mulCtx false 64 64).L = 4 := by decide +kernel
  have vg : (mulCtx false 64 64).g = 2305843009213554689 := rfl
  have vm : (2 ^ (mulCtx false 64 64).k * badMask + (mulCtx false 64 64).Q / 2) % (mulCtx false 64 64).Q =
      42535295865117307928310139910543638528 := by decide +kernel
  have vn : near (((mulCtx false 64 64).Q : ℚ) * (11642558788483891201 : ℕ) / 2 ^ (mulCtx false 64 64).k) =
      967225857638604939805579100112642015833892338868545039 := by
    rw [← Nat.cast_mul, near_div _ (by decide), vQ]
    decide +kernel
  have vc : centred (mulCtx false 64 64).k (2 ^ 63) = 2 ^ 63 := by decide +kernel
  have one := (hz badMask (fun l _ => Nat.mod_mod _ _)).2 (by
    rw [cmFract H, vm, vQ, vL, vg]; norm_num) (by
    rw [cmFract H, vm, vn, vc, vQ, vL, vg, hk]; norm_num)
  rw [one, Int.cast_one] at hs
  exact hs

/-! ## Examples -/

/-- Three products in two polynomials per modulus, all hypotheses met. -/
example : ∃ h, init (mulCtx false 64 64) = some h ∧ ∃ bad : Finset ℕ, bad.card * 2 ^ 48 ≤ (mulCtx false 64 64).Q ∧
    ((∀ i, i < 3 → 7 + i ∉ bad) → ∃ a b, mulOLE h (bitCeil 64) 2 3 (fun i => i + 2 ^ 60) (fun i => 2 ^ 64 - 5 - i)
      (fun l i => (7 + i) % (mulCtx false 64 64).q l) = some (a, b) ∧
      (a 1 : ZMod (2 ^ 64)) + b 1 = ((1 + 2 ^ 60 : ℕ) : ZMod (2 ^ 64)) * ((2 ^ 64 - 6 : ℕ) : ZMod (2 ^ 64))) := by
  obtain ⟨h, hh, bad, hb, hx⟩ := c59_rate false (ring := 64) (by decide)
  refine ⟨h, hh, bad, hb, fun hbad => ?_⟩
  obtain ⟨a, b, e, hab⟩ := (hx 2 3 (by decide) (by decide) (fun i => 7 + i) (fun i hi => ⟨by
    have : 10 < (mulCtx false 64 64).Q := by decide +kernel
    omega, hbad i hi⟩)).1 (fun i => i + 2 ^ 60) (fun i => 2 ^ 64 - 5 - i) (fun i hi => by omega) (fun i hi => by omega)
  exact ⟨a, b, e, hab 1 (by decide)⟩

/-- The mask 0 is clear by almost one half. -/
example : Clear (mulCtx false 64 64) (1 / 2) 0 := by
  unfold Clear
  norm_num

end Spu.Props

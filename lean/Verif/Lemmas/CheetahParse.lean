import Verif.Lemmas.CheetahPack
import Verif.Model.CheetahDotOLE

set_option autoImplicit false

/-!
Lemmas for C78: the shape of blocks, and reading results.
-/

namespace Spu.Model.Cdot
open Spu.Spec.Nega Spu.Model.Cmul
open Spu.Model.Ms (bitCeil)

/-! ## The shape of blocks -/

/-- what is known of a shape of blocks -/
structure GoodShape (pack : Bool) (n : ℕ) (m t : Dims) : Prop where
  fits : Fits n t
  l0 : t.d0 ≤ m.d0
  l1 : t.d1 ≤ m.d1
  l2 : t.d2 ≤ m.d2
  pow : pack = true → ∃ l, t.d1 = 2 ^ l

theorem goodShape_of {pack : Bool} {n d0 d1 : ℕ} {m : Dims} (h0 : 0 < d0) (h0' : d0 ≤ m.d0) (h1 : 0 < d1) (h1' : d1 ≤ m.d1)
    (h2 : 0 < m.d2) (hn : d0 * d1 ≤ n) (hp : pack = true → ∃ l, d1 = 2 ^ l) :
    GoodShape pack n m ⟨d0, d1, min m.d2 (n / d0 / d1)⟩ := by
  have hq : 0 < n / d0 / d1 := by
    rw [Nat.div_div_eq_div_mul]
    exact Nat.div_pos hn (Nat.mul_pos h0 h1)
  refine ⟨⟨h0, h1, by show 0 < min _ _; omega, ?_⟩, h0', h1', min_le_left _ _, hp⟩
  show d0 * (d1 * min m.d2 (n / d0 / d1)) ≤ n
  rw [← Nat.mul_assoc]
  calc d0 * d1 * min m.d2 (n / d0 / d1) ≤ d0 * d1 * (n / (d0 * d1)) := by
        apply Nat.mul_le_mul_left
        rw [← Nat.div_div_eq_div_mul]
        exact min_le_right _ _
    _ ≤ n := Nat.mul_div_le _ _

theorem d1Loop_good {cost : Dims → ℚ} {pack : Bool} {n d0 : ℕ} {m : Dims} (h0 : 0 < d0) (h0' : d0 ≤ m.d0) (h2 : 0 < m.d2)
    (f d1 : ℕ) (h1 : 0 < d1) (hp : pack = true → ∃ l, d1 = 2 ^ l) (s : Option ℚ × Dims)
    (hs : s.1.isSome → GoodShape pack n m s.2) :
    ((d1Loop cost pack n d0 m f d1 s).1.isSome → GoodShape pack n m (d1Loop cost pack n d0 m f d1 s).2) ∧
    (s.1.isSome → (d1Loop cost pack n d0 m f d1 s).1.isSome) ∧
    (0 < f → d1 ≤ m.d1 → d0 * d1 ≤ n → (d1Loop cost pack n d0 m f d1 s).1.isSome) := by
  induction f generalizing d1 s with
  | zero => exact ⟨hs, id, fun h => absurd h (Nat.lt_irrefl 0)⟩
  | succ f ih =>
    rw [d1Loop]
    by_cases hc : d1 ≤ m.d1 ∧ d0 * d1 ≤ n
    · rw [if_pos hc]
      dsimp only
      have hg := goodShape_of (pack := pack) h0 h0' h1 hc.1 h2 hc.2 hp
      generalize hb : better (cost ⟨d0, d1, min m.d2 (n / d0 / d1)⟩) s.1 = bt
      have hsome : (if bt = true then (some (cost ⟨d0, d1, min m.d2 (n / d0 / d1)⟩),
          (⟨d0, d1, min m.d2 (n / d0 / d1)⟩ : Dims)) else s).1.isSome := by
        cases bt with
        | true => simp
        | false =>
          simp only [Bool.false_eq_true, if_false]
          cases hs1 : s.1 with
          | none => rw [hs1] at hb; simp [better] at hb
          | some c => rfl
      have hgood : (if bt = true then (some (cost ⟨d0, d1, min m.d2 (n / d0 / d1)⟩),
          (⟨d0, d1, min m.d2 (n / d0 / d1)⟩ : Dims)) else s).1.isSome → GoodShape pack n m
          (if bt = true then (some (cost ⟨d0, d1, min m.d2 (n / d0 / d1)⟩),
            (⟨d0, d1, min m.d2 (n / d0 / d1)⟩ : Dims)) else s).2 := by
        intro h
        cases bt with
        | true => exact hg
        | false => exact hs h
      obtain ⟨i1, i2, -⟩ := ih (if pack = true then d1 * 2 else d1 + 1) (by split_ifs <;> omega) (fun hp' => by
        obtain ⟨l, rfl⟩ := hp hp'
        exact ⟨l + 1, by rw [if_pos hp', pow_succ]⟩) _ hgood
      exact ⟨i1, fun _ => i2 hsome, fun _ _ _ => i2 hsome⟩
    · rw [if_neg hc]
      exact ⟨hs, id, fun _ a b => absurd ⟨a, b⟩ hc⟩

/-- `GetSubMatShape` gives blocks that fit in a polynomial; with packing, the middle extent is a power of two. -/
theorem subShape_good (cost : Dims → ℚ) (pack : Bool) {n : ℕ} {m : Dims} (hn : 0 < n) (h0 : 0 < m.d0) (h1 : 0 < m.d1)
    (h2 : 0 < m.d2) : GoodShape pack n m (subShape cost pack n m) := by
  have key : ∀ k, k ≤ m.d0 →
      ((List.range k).foldl (fun s i => d1Loop cost pack n (i + 1) m m.d1 1 s) ((none : Option ℚ), (⟨0, 0, 0⟩ : Dims))).1.isSome →
      GoodShape pack n m
        ((List.range k).foldl (fun s i => d1Loop cost pack n (i + 1) m m.d1 1 s) ((none : Option ℚ), (⟨0, 0, 0⟩ : Dims))).2 := by
    intro k
    induction k with
    | zero => intro _ h; simp at h
    | succ k ih =>
      intro hk
      rw [List.range_succ, List.foldl_append]
      exact (d1Loop_good (by omega) hk h2 _ 1 (by omega) (fun _ => ⟨0, rfl⟩) _ (ih (by omega))).1
  have sm : ∀ k, 0 < k → k ≤ m.d0 →
      ((List.range k).foldl (fun s i => d1Loop cost pack n (i + 1) m m.d1 1 s)
        ((none : Option ℚ), (⟨0, 0, 0⟩ : Dims))).1.isSome := by
    intro k
    induction k with
    | zero => intro h; omega
    | succ k ih =>
      intro _ hk
      rw [List.range_succ, List.foldl_append]
      have := d1Loop_good (cost := cost) (pack := pack) (n := n) (d0 := k + 1) (by omega) hk h2 m.d1 1 (by omega)
        (fun _ => ⟨0, rfl⟩) _ (key k (by omega))
      by_cases hk0 : k = 0
      · subst hk0
        exact this.2.2 h1 h1 (by omega)
      · exact this.2.1 (ih (by omega) (by omega))
  exact key _ (min_le_right _ _) (sm _ (by omega) (min_le_right _ _))

/-! ## Loops over blocks -/

theorem blockCells_mem {N : ℕ} {m s : Dims} (h : Fits N s) {x : (ℕ × ℕ) × (ℕ × ℕ)} (hx : x ∈ blockCells m s) :
    ∃ r c, r < m.d0 ∧ c < m.d2 ∧ x = ((r / s.d0, c / s.d2), (r % s.d0, c % s.d2)) ∧ cellDst m s x = r * m.d2 + c := by
  obtain ⟨⟨rb, cb⟩, ⟨r, c⟩⟩ := x
  simp only [blockCells, List.mem_flatMap, List.mem_map] at hx
  obtain ⟨b, hb, e, he, heq⟩ := hx
  obtain ⟨rfl, rfl⟩ := Prod.mk.inj heq
  obtain ⟨-, -⟩ := mem_cells.1 hb
  obtain ⟨e1, e2⟩ := mem_cells.1 he
  dsimp only at e1 e2
  have r1 : r < s.d0 := by omega
  have c1 : c < s.d2 := by omega
  refine ⟨rb * s.d0 + r, cb * s.d2 + c, by omega, by omega, ?_, ?_⟩
  · rw [(jobDM r1).1, (jobDM r1).2, (jobDM c1).1, (jobDM c1).2]
  · unfold cellDst
    dsimp only
    rw [Nat.add_comm r]
    omega

theorem mem_blockCells {N : ℕ} {m s : Dims} (h : Fits N s) {r c : ℕ} (hr : r < m.d0) (hc : c < m.d2) :
    ((r / s.d0, c / s.d2), (r % s.d0, c % s.d2)) ∈ blockCells m s ∧
      cellDst m s ((r / s.d0, c / s.d2), (r % s.d0, c % s.d2)) = r * m.d2 + c := by
  have r1 := Nat.mod_lt r h.p0
  have c1 := Nat.mod_lt c h.p2
  have r2 := Nat.div_add_mod' r s.d0
  have c2 := Nat.div_add_mod' c s.d2
  constructor
  · simp only [blockCells, List.mem_flatMap, List.mem_map]
    exact ⟨(r / s.d0, c / s.d2), mem_cells.2 ⟨div_lt_cdiv h.p0 hr, div_lt_cdiv h.p2 hc⟩, (r % s.d0, c % s.d2),
      mem_cells.2 ⟨by dsimp only; omega, by dsimp only; omega⟩, rfl⟩
  · unfold cellDst
    dsimp only
    rw [Nat.add_comm (r % s.d0), r2]
    omega

theorem idx_lt {m : Dims} {r c : ℕ} (hr : r < m.d0) (hc : c < m.d2) : r * m.d2 + c < m.d0 * m.d2 := by
  have : (r + 1) * m.d2 ≤ m.d0 * m.d2 := Nat.mul_le_mul_right _ hr
  rw [Nat.add_mul] at this
  omega

variable {β : Type}

/-- a loop over blocks that writes at an offset -/
theorem blockLoop {N : ℕ} {m s : Dims} (h : Fits N s) (step : (ℕ → β) → (ℕ × ℕ) × (ℕ × ℕ) → Option (ℕ → β)) (base : ℕ)
    (G : ℕ → ℕ → β)
    (hs : ∀ out r c, r < m.d0 → c < m.d2 → step out ((r / s.d0, c / s.d2), (r % s.d0, c % s.d2)) =
      some (Function.update out (base + (r * m.d2 + c)) (G r c))) (out : ℕ → β) :
    ∃ out', (blockCells m s).foldlM step out = some out' ∧
      (∀ r, r < m.d0 → ∀ c, c < m.d2 → out' (base + (r * m.d2 + c)) = G r c) ∧
      ∀ o, (o < base ∨ base + m.d0 * m.d2 ≤ o) → out' o = out o := by
  rw [foldlM_pure_of step (fun out x => Function.update out (base + cellDst m s x)
    (G (cellDst m s x / m.d2) (cellDst m s x % m.d2)))]
  · obtain ⟨w1, w2⟩ := foldl_write (fun x => base + cellDst m s x)
      (fun x => G (cellDst m s x / m.d2) (cellDst m s x % m.d2)) (blockCells m s) (by
        intro x _ y _ e
        have : cellDst m s x = cellDst m s y := by omega
        simp only [this]) out
    refine ⟨_, rfl, fun r hr c hc => ?_, fun o ho => w2 o fun x hx e => ?_⟩
    · obtain ⟨a, b⟩ := mem_blockCells h hr hc
      have := w1 _ a
      simp only [b] at this
      rw [this, (jobDM hc).1, (jobDM hc).2]
    · obtain ⟨r, c, hr, hc, -, b⟩ := blockCells_mem h hx
      have := idx_lt hr hc
      omega
  · intro x hx o
    obtain ⟨r, c, hr, hc, rfl, b⟩ := blockCells_mem h hx
    rw [hs o r c hr hc, b, (jobDM hc).1, (jobDM hc).2]

theorem resIndex_lt {N : ℕ} {s : Dims} (h : Fits N s) {r c : ℕ} (hr : r < s.d0) (hc : c < s.d2) : resIndex s r c < N := by
  have h1 := h.row hr
  have h2 := h.col hc
  have h3 := h.p1
  unfold resIndex
  omega

theorem parseResult_spec {N : ℕ} {m s : Dims} (h : Fits N s) (z : β) (polys : ℕ → ℕ → β) :
    ∃ out, parseResult N m s z polys = some out ∧ ∀ r, r < m.d0 → ∀ c, c < m.d2 →
      out (r * m.d2 + c) = polys (r / s.d0 * cdiv m.d2 s.d2 + c / s.d2) (resIndex s (r % s.d0) (c % s.d2)) := by
  obtain ⟨out, e, h1, -⟩ := blockLoop (β := β) (m := m) h (fun out x =>
    let p := x.1.1 * cdiv m.d2 s.d2 + x.1.2
    let t := resIndex s x.2.1 x.2.2
    if t < N ∧ cellDst m s x < m.d0 * m.d2 then some (Function.update out (cellDst m s x) (polys p t)) else none) 0
    (fun r c => polys (r / s.d0 * cdiv m.d2 s.d2 + c / s.d2) (resIndex s (r % s.d0) (c % s.d2))) (by
      intro out r c hr hc
      simp only [(mem_blockCells h hr hc).2]
      rw [if_pos ⟨resIndex_lt h (Nat.mod_lt _ h.p0) (Nat.mod_lt _ h.p2), idx_lt hr hc⟩, Nat.zero_add]) (fun _ => z)
  refine ⟨out, e, fun r hr c hc => ?_⟩
  have := h1 r hr c hc
  rwa [Nat.zero_add] at this

theorem wrapLWEs_spec {N : ℕ} {m s : Dims} (h : Fits N s) :
    ∃ out, wrapLWEs m s = some out ∧ ∀ r, r < m.d0 → ∀ c, c < m.d2 →
      out (r * m.d2 + c) = some (r / s.d0 * cdiv m.d2 s.d2 + c / s.d2, resIndex s (r % s.d0) (c % s.d2)) := by
  obtain ⟨out, e, h1, -⟩ := blockLoop (β := Option (ℕ × ℕ)) (m := m) h (fun out x =>
    if cellDst m s x < m.d0 * m.d2 then
      some (Function.update out (cellDst m s x) (some (x.1.1 * cdiv m.d2 s.d2 + x.1.2, resIndex s x.2.1 x.2.2)))
    else none) 0
    (fun r c => some (r / s.d0 * cdiv m.d2 s.d2 + c / s.d2, resIndex s (r % s.d0) (c % s.d2))) (by
      intro out r c hr hc
      simp only [(mem_blockCells h hr hc).2]
      rw [if_pos (idx_lt hr hc), Nat.zero_add]) (fun _ => none)
  refine ⟨out, e, fun r hr c hc => ?_⟩
  have := h1 r hr c hc
  rwa [Nat.zero_add] at this

theorem polyIdx_lt {N : ℕ} {m s : Dims} (h : Fits N s) {r c : ℕ} (hr : r < m.d0) (hc : c < m.d2) :
    r / s.d0 * cdiv m.d2 s.d2 + c / s.d2 < cdiv m.d0 s.d0 * cdiv m.d2 s.d2 := by
  have h1 := div_lt_cdiv h.p0 hr
  have h2 := div_lt_cdiv h.p2 hc
  have : (r / s.d0 + 1) * cdiv m.d2 s.d2 ≤ cdiv m.d0 s.d0 * cdiv m.d2 s.d2 := Nat.mul_le_mul_right _ h1
  rw [Nat.add_mul] at this
  omega

theorem block_lt {k n b p : ℕ} (hb : b < k) (hp : p < n) : b * n + p < n * k := by
  have : (b + 1) * n ≤ k * n := Nat.mul_le_mul_right _ hb
  rw [Nat.add_mul, Nat.mul_comm k] at this
  omega

theorem parsePacked_spec {N batch : ℕ} {m s : Dims} (h : Fits N s) (hd : s.d1 ∣ N) (z : β) (polys : ℕ → ℕ → β) :
    ∃ out, parsePacked N batch m s z polys = some out ∧ ∀ b, b < batch → ∀ r, r < m.d0 → ∀ c, c < m.d2 →
      out (b * (m.d0 * m.d2) + (r * m.d2 + c)) =
        polys ((b * (cdiv m.d0 s.d0 * cdiv m.d2 s.d2) + (r / s.d0 * cdiv m.d2 s.d2 + c / s.d2)) / s.d1)
          ((r % s.d0 * s.d2 + c % s.d2) * s.d1 +
            (b * (cdiv m.d0 s.d0 * cdiv m.d2 s.d2) + (r / s.d0 * cdiv m.d2 s.d2 + c / s.d2)) % s.d1) := by
  unfold parsePacked
  dsimp only
  set outN := cdiv m.d0 s.d0 * cdiv m.d2 s.d2 with houtN
  set per := m.d0 * m.d2 with hper
  obtain ⟨g, rfl⟩ := hd
  have offs : ∀ r c, r < m.d0 → c < m.d2 → r % s.d0 * s.d2 + c % s.d2 < g := by
    intro r c _ _
    have h1 : r % s.d0 * s.d2 + c % s.d2 < s.d0 * s.d2 := idx_lt (m := s) (Nat.mod_lt _ h.p0) (Nat.mod_lt _ h.p2)
    have h2 : s.d1 * (s.d0 * s.d2) ≤ s.d1 * g := by
      have := h.le
      rwa [show s.d0 * (s.d1 * s.d2) = s.d1 * (s.d0 * s.d2) by ring] at this
    exact h1.trans_le (Nat.le_of_mul_le_mul_left h2 h.p1)
  have key : ∀ B, B ≤ batch → ∃ out : ℕ → β, (List.range B).foldlM (m := Option) (fun out b =>
      (blockCells m s).foldlM (m := Option) (fun (out : ℕ → β) x => do
        let p := x.1.1 * cdiv m.d2 s.d2 + x.1.2
        let o ← packedIndex (s.d1 * g) s.d1 (outN * batch) (b * outN + p) (x.2.1 * s.d2 + x.2.2)
        if o.1 < cdiv (outN * batch) s.d1 ∧ o.2 < s.d1 * g ∧ cellDst m s x < per then
          return Function.update out (b * per + cellDst m s x) (polys o.1 o.2)
        else none) out) (fun _ => z) = some out ∧ ∀ b, b < B → ∀ r, r < m.d0 → ∀ c, c < m.d2 →
      out (b * per + (r * m.d2 + c)) =
        polys ((b * outN + (r / s.d0 * cdiv m.d2 s.d2 + c / s.d2)) / s.d1)
          ((r % s.d0 * s.d2 + c % s.d2) * s.d1 + (b * outN + (r / s.d0 * cdiv m.d2 s.d2 + c / s.d2)) % s.d1) := by
    intro B
    induction B with
    | zero => exact fun _ => ⟨_, rfl, fun b hb => absurd hb (Nat.not_lt_zero _)⟩
    | succ B ih =>
      intro hB
      obtain ⟨out, e, h1⟩ := ih (by omega)
      obtain ⟨out', e', h2, h3⟩ := blockLoop (β := β) (m := m) h (fun out x => do
        let p := x.1.1 * cdiv m.d2 s.d2 + x.1.2
        let o ← packedIndex (s.d1 * g) s.d1 (outN * batch) (B * outN + p) (x.2.1 * s.d2 + x.2.2)
        if o.1 < cdiv (outN * batch) s.d1 ∧ o.2 < s.d1 * g ∧ cellDst m s x < per then
          return Function.update out (B * per + cellDst m s x) (polys o.1 o.2)
        else none) (B * per) (fun r c =>
          polys ((B * outN + (r / s.d0 * cdiv m.d2 s.d2 + c / s.d2)) / s.d1)
            ((r % s.d0 * s.d2 + c % s.d2) * s.d1 + (B * outN + (r / s.d0 * cdiv m.d2 s.d2 + c / s.d2)) % s.d1)) (by
        intro out r c hr hc
        have l1 := block_lt (show B < batch by omega) (polyIdx_lt h hr hc)
        have l2 := offs r c hr hc
        have l3 := Nat.mod_lt (B * outN + (r / s.d0 * cdiv m.d2 s.d2 + c / s.d2)) h.p1
        dsimp only
        rw [(mem_blockCells h hr hc).2, packedIndex,
          if_pos ⟨l1, by rw [Nat.mul_div_cancel_left _ h.p1]; exact l2⟩]
        simp only [Option.bind_eq_bind, Option.bind_some]
        have l4 : (r % s.d0 * s.d2 + c % s.d2) * s.d1 + (B * outN + (r / s.d0 * cdiv m.d2 s.d2 + c / s.d2)) % s.d1 < s.d1 * g := by
          rw [Nat.mul_comm s.d1]
          have := Nat.mul_le_mul_right s.d1 (Nat.succ_le_of_lt l2)
          rw [Nat.succ_mul] at this
          omega
        rw [if_pos ⟨div_lt_cdiv h.p1 l1, l4, idx_lt hr hc⟩]
        rfl) out
      refine ⟨out', ?_, fun b hb r hr c hc => ?_⟩
      · rw [List.range_succ, List.foldlM_append, e]
        simp only [Option.bind_eq_bind, Option.bind_some, List.foldlM_cons, List.foldlM_nil]
        simp only [Option.bind_eq_bind] at e'
        rw [e']
        rfl
      · by_cases hbB : b = B
        · subst hbB
          exact h2 r hr c hc
        · rw [h3 _ (Or.inl ?_)]
          · exact h1 b (by omega) r hr c hc
          · have := block_lt (show b < B by omega) (idx_lt hr hc)
            rwa [Nat.mul_comm _ B] at this
  exact key batch le_rfl

/-! ## Results packed as single coefficients -/

theorem le_bitCeil_self (n : ℕ) : n ≤ bitCeil n := Nat.le_pow_clog (by norm_num) n

theorem bitCeil_le_deg {n l : ℕ} (h : n ≤ 2 ^ l) : bitCeil n ≤ 2 ^ l :=
  Nat.pow_le_pow_right (by norm_num) (Nat.clog_le_of_le_pow h)

theorem cdiv_one {a N : ℕ} (h0 : 0 < a) (h : a ≤ N) : cdiv a N = 1 := by
  unfold cdiv
  rw [Nat.div_eq_iff (by omega)]
  omega

theorem parseLWEs_spec {n : ℕ} {m : Dims} (h0 : 0 < m.d0 * m.d2) (h : m.d0 * m.d2 ≤ 2 ^ n) (z : β) (polys : ℕ → ℕ → β) :
    ∃ out, parseLWEs (2 ^ n) 1 m z polys = some out ∧ ∀ i, i < m.d0 * m.d2 →
      out i = polys 0 (i * (2 ^ n / bitCeil (m.d0 * m.d2))) := by
  unfold parseLWEs
  dsimp only
  rw [if_pos (cdiv_one h0 h).symm]
  simp only [List.range_one, List.foldlM_cons, List.foldlM_nil, Nat.zero_mul, Nat.zero_min, Nat.zero_add, Nat.sub_zero]
  rw [min_eq_right h]
  have hdvd : bitCeil (m.d0 * m.d2) * (2 ^ n / bitCeil (m.d0 * m.d2)) = 2 ^ n := by
    refine Nat.mul_div_cancel' (pow_dvd_pow 2 ?_)
    exact Nat.clog_le_of_le_pow h
  have hpos : 0 < 2 ^ n / bitCeil (m.d0 * m.d2) := Nat.pos_of_ne_zero fun e => by
    rw [e, Nat.mul_zero] at hdvd
    exact absurd hdvd.symm (by positivity)
  rw [foldlM_pure_of _ (fun (out : ℕ → β) j => Function.update out j (polys 0 (j * (2 ^ n / bitCeil (m.d0 * m.d2)))))]
  · obtain ⟨w1, -⟩ := foldl_write (fun j : ℕ => j) (fun j => polys 0 (j * (2 ^ n / bitCeil (m.d0 * m.d2))))
      (List.range (m.d0 * m.d2)) (fun x _ y _ e => by rw [e]) (fun _ => z)
    exact ⟨_, rfl, fun i hi => w1 i (List.mem_range.2 hi)⟩
  · intro j hj out
    have hj := List.mem_range.1 hj
    rw [if_pos]
    conv_rhs => rw [← hdvd]
    exact Nat.mul_lt_mul_of_pos_right (hj.trans_le (le_bitCeil_self _)) hpos

theorem packAllLWEs_spec {A : Type} [CommRing A] {n total : ℕ} (h0 : 0 < total) (h : total ≤ 2 ^ n) {inv : A}
    (hinv : 2 ^ n * inv = 1) {cts : ℕ → Option (ℕ → A)} {x : ℕ → A}
    (hs : ∀ i, i < total → (cts i).isSome) (hc : ∀ i, i < total → valOf (cts i) 0 = inv * x i)
    (hn : ∀ i, total ≤ i → cts i = none) :
    ∃ out, packAllLWEs (2 ^ n) n (bitCeil total) cts = some out ∧ ∀ i, i < total →
      out 0 (i * (2 ^ n / bitCeil total)) = x i := by
  have hle := bitCeil_le_deg h
  have hlog : Nat.log 2 (bitCeil total) = Nat.clog 2 total := Nat.log_pow (by norm_num) _
  have hl : Nat.clog 2 total ≤ n := Nat.clog_le_of_le_pow h
  obtain ⟨p, e, hp⟩ := packLWEs_spec (l := Nat.clog 2 total) hl hinv (cts := cts) (x := fun i => if i < total then x i else 0)
    (hs 0 h0) (by
      intro i _
      by_cases hi : i < total
      · rw [hc i hi]; simp [hi]
      · rw [hn i (by omega)]; simp [hi, valOf])
  have hdvd : bitCeil total * (2 ^ n / bitCeil total) = 2 ^ n := Nat.mul_div_cancel' (pow_dvd_pow 2 hl)
  have hpos : 0 < 2 ^ n / bitCeil total := Nat.pos_of_ne_zero fun e => by
    rw [e, Nat.mul_zero] at hdvd
    exact absurd hdvd.symm (by positivity)
  refine ⟨Function.update (fun _ _ => 0) 0 p, ?_, fun i hi => ?_⟩
  · unfold packAllLWEs
    rw [cdiv_one (h0.trans_le (le_bitCeil_self _)) hle]
    simp only [List.range_one, List.foldlM_cons, List.foldlM_nil, Nat.zero_mul, Nat.zero_add, Nat.sub_zero]
    rw [min_eq_left hle, hlog, if_pos (show 2 ^ Nat.clog 2 total = bitCeil total from rfl), e]
    rfl
  · rw [Function.update_self, hp]
    · rw [show 2 ^ n / 2 ^ Nat.clog 2 total = 2 ^ n / bitCeil total from rfl, if_pos (Dvd.intro_left i rfl),
        Nat.mul_div_cancel _ hpos, if_pos hi]
    · conv_rhs => rw [← hdvd]
      exact Nat.mul_lt_mul_of_pos_right (hi.trans_le (le_bitCeil_self _)) hpos

end Spu.Model.Cdot

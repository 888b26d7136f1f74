import Verif.Lemmas.Waksman
import Verif.Spec.Waksman

set_option autoImplicit false

/-! C16: AS-Waksman networks -/

namespace Spu.Props

open Spu.Model.Waksman Spu.Spec.Waksman

/-! ## Travelling -/

theorem travel_append (nb : Topology) (rt : Routing) : ∀ (k1 k2 c r : ℕ),
    travel nb rt c (k1 + k2) r = (travel nb rt c k1 r).bind fun r' => travel nb rt (c + k1) k2 r'
  | 0, k2, c, r => by simp [travel]
  | k1 + 1, k2, c, r => by
    rw [show k1 + 1 + k2 = (k1 + k2) + 1 by omega]
    simp only [travel]
    rcases hop nb rt c r with _ | r'
    · rfl
    · simp only [Option.bind_some]
      rw [travel_append nb rt k1 k2 (c + 1) r', show c + 1 + k1 = c + (k1 + 1) by omega]

theorem hop_wire {nb : Topology} {rt : Routing} {c r q : ℕ} (h : nb c r = ((q : ℤ), (q : ℤ))) : hop nb rt c r = some q := by
  unfold hop; simp [h]

/-- settings are recorded at the upper rows only -/
def UpperOnly (rt : Routing) : Prop := ∀ c k b, rt c k = some b → rt c (k + 1) = none

theorem setting_upper {rt : Routing} (hk : UpperOnly rt) {c r : ℕ} {b : Bool} (h : rt c r = some b) : setting rt c r = some b := by
  unfold setting
  have : (if r = 0 then none else rt c (r - 1)) = none := by
    split
    · rfl
    · rename_i hr
      rcases h' : rt c (r - 1) with _ | b'
      · rfl
      · have := hk c (r - 1) b' h'
        rw [show r - 1 + 1 = r by omega, h] at this; cases this
  rw [h, this]

theorem setting_lower {rt : Routing} (hk : UpperOnly rt) {c r : ℕ} {b : Bool} (h : rt c r = some b) : setting rt c (r + 1) = some b := by
  unfold setting
  rw [hk c r b h, if_neg (by omega), show r + 1 - 1 = r by omega, h]

theorem hop_switch {nb : Topology} {rt : Routing} {c r a b : ℕ} {s : Bool} (h : nb c r = ((a : ℤ), (b : ℤ))) (hab : a ≠ b)
    (hs : setting rt c r = some s) : hop nb rt c r = some (if s then b else a) := by
  unfold hop
  have : ((a : ℤ) = (b : ℤ)) ↔ False := by simp; exact hab
  simp only [h, this, if_false, hs, Option.map_some, Option.bind_some]
  cases s <;> simp

/-! ## One level of the topology -/

theorem upd2_row {α : Type} (f : ℕ → ℕ → α) (c : ℕ) {i j : ℕ} (x : α) {c' : ℕ} (h : j ≠ i) : upd2 f c i x c' j = f c' j := by
  unfold upd2 upd
  by_cases hc : c' = c
  · subst hc; simp [h]
  · simp [hc]

theorem switchOutput_at {n lo k : ℕ} (t : Bool) (h : 2 * k + 1 < n) :
    switchOutput n lo (lo + 2 * k) t = some (lo + k + (if t then 0 else n / 2)) := by
  unfold switchOutput topHeight
  have : lo + 2 * k - lo = 2 * k := by omega
  simp only [this]
  rw [if_pos ⟨by omega, h⟩, show 2 * k / 2 = k by omega]

theorem switches_spec {left right lo hi : ℕ} (hlr : left ≠ right) (dests : ℕ → ℤ) (nd0 : ℕ → ℤ) (nb0 : Topology) :
    ∀ k, 2 * k ≤ hi - lo + 1 → ∃ nd nb, switches left right lo (hi - lo + 1) dests k (nd0, nb0) = some (nd, nb) ∧
      (∀ r, lo ≤ r → r < lo + 2 * k →
        nb left r = ((wire lo hi r (decide (r = canon lo r)) : ℤ), (wire lo hi r (!decide (r = canon lo r)) : ℤ)) ∧
        nb right r = (dests (r - lo), dests (other lo r - lo))) ∧
      (∀ c r, ¬((c = left ∨ c = right) ∧ lo ≤ r ∧ r < lo + 2 * k) → nb c r = nb0 c r) ∧
      (∀ i, i < k → nd i = ((lo + 2 * i : ℕ) : ℤ) ∧ nd ((hi - lo + 1) / 2 + i) = ((lo + 2 * i + 1 : ℕ) : ℤ)) := by
  intro k
  induction k with
  | zero =>
    intro _
    exact ⟨nd0, nb0, rfl, fun r h1 h2 => by omega, fun _ _ _ => rfl, fun i h => by omega⟩
  | succ k ih =>
    intro hk
    obtain ⟨nd, nb, e, h1, h2, h3⟩ := ih (by omega)
    have ht := switchOutput_at (n := hi - lo + 1) (lo := lo) (k := k) true (by omega)
    have hb := switchOutput_at (n := hi - lo + 1) (lo := lo) (k := k) false (by omega)
    have e' : switches left right lo (hi - lo + 1) dests (k + 1) (nd0, nb0) = some
        (upd (upd nd (lo + k + (if true = true then 0 else (hi - lo + 1) / 2) - lo) ((lo + 2 * k : ℕ) : ℤ))
          (lo + k + (if false = true then 0 else (hi - lo + 1) / 2) - lo) ((lo + 2 * k + 1 : ℕ) : ℤ),
        upd2 (upd2 (upd2 (upd2 nb left (lo + 2 * k)
            (((lo + k + (if true = true then 0 else (hi - lo + 1) / 2) : ℕ) : ℤ), ((lo + k + (if false = true then 0 else (hi - lo + 1) / 2) : ℕ) : ℤ)))
          left (lo + 2 * k + 1)
            (((lo + k + (if false = true then 0 else (hi - lo + 1) / 2) : ℕ) : ℤ), ((lo + k + (if true = true then 0 else (hi - lo + 1) / 2) : ℕ) : ℤ)))
          right (lo + 2 * k) (dests (lo + 2 * k - lo), dests (lo + 2 * k + 1 - lo)))
          right (lo + 2 * k + 1) (dests (lo + 2 * k + 1 - lo), dests (lo + 2 * k - lo))) := by
      unfold switches
      rw [e, Option.bind_some]
      simp only
      rw [ht, Option.bind_some, hb, Option.bind_some]
      rfl
    refine ⟨_, _, e', ?_, ?_, ?_⟩
    · intro r r1 r2
      have hrl : ∀ (f : Topology) a x, upd2 f right a x left = f left := fun f a x => upd2_col _ _ _ hlr
      have hll : ∀ (f : Topology) a x, upd2 f left a x right = f right := fun f a x => upd2_col _ _ _ (Ne.symm hlr)
      by_cases hr0 : r = lo + 2 * k
      · subst hr0
        have hcn : canon lo (lo + 2 * k) = lo + 2 * k := by unfold canon; omega
        have hot : other lo (lo + 2 * k) = lo + 2 * k + 1 := by unfold other; rw [hcn]; omega
        constructor
        · rw [hrl, hrl, upd2_same, upd_ne _ _ (by omega), upd2_same, upd_same]
          simp only [hcn, wire, topHeight, decide_true, Bool.not_true, if_true]
          rw [show (lo + 2 * k - lo) / 2 = k by omega]
        · rw [upd2_same, upd_ne _ _ (by omega), upd2_same, upd_same, hot]
      · by_cases hr1 : r = lo + 2 * k + 1
        · subst hr1
          have hcn : canon lo (lo + 2 * k + 1) = lo + 2 * k := by unfold canon; omega
          have hot : other lo (lo + 2 * k + 1) = lo + 2 * k := by unfold other; rw [hcn]; omega
          constructor
          · rw [hrl, hrl, upd2_same, upd_same]
            simp only [hcn, wire, topHeight]
            rw [show (lo + 2 * k + 1 - lo) / 2 = k by omega]
            simp
          · rw [upd2_same, upd_same, hot]
        · obtain ⟨a, b⟩ := h1 r r1 (by omega)
          constructor
          · rw [hrl, hrl, upd2_same, upd_ne _ _ hr1, upd2_same, upd_ne _ _ hr0, a]
          · rw [upd2_same, upd_ne _ _ hr1, upd2_same, upd_ne _ _ hr0, hll, hll, b]
    · intro c r hcr
      have a0 : ¬((c = left ∨ c = right) ∧ lo ≤ r ∧ r < lo + 2 * k) := by
        rintro ⟨a, b, c'⟩; exact hcr ⟨a, b, by omega⟩
      rw [← h2 c r a0]
      by_cases hc : c = left ∨ c = right
      · have hr0 : r ≠ lo + 2 * k := by intro h; exact hcr ⟨hc, by omega, by omega⟩
        have hr1 : r ≠ lo + 2 * k + 1 := by intro h; exact hcr ⟨hc, by omega, by omega⟩
        rw [upd2_row _ _ _ hr1, upd2_row _ _ _ hr0, upd2_row _ _ _ hr1, upd2_row _ _ _ hr0]
      · have c1 : c ≠ right := fun h => hc (Or.inr h)
        have c2 : c ≠ left := fun h => hc (Or.inl h)
        rw [upd2_col _ _ _ c1, upd2_col _ _ _ c1, upd2_col _ _ _ c2, upd2_col _ _ _ c2]
    · intro i hi'
      have e1 : lo + k + (if true = true then 0 else (hi - lo + 1) / 2) - lo = k := by simp
      have e2 : lo + k + (if false = true then 0 else (hi - lo + 1) / 2) - lo = (hi - lo + 1) / 2 + k := by simp; omega
      rw [e1, e2]
      by_cases hik : i = k
      · subst hik
        refine ⟨?_, upd_same _ _ _⟩
        rw [upd_ne _ _ (by omega), upd_same]
      · obtain ⟨a, b⟩ := h3 i (by omega)
        refine ⟨?_, ?_⟩
        · rw [upd_ne _ _ (by omega), upd_ne _ _ hik, a]
        · rw [upd_ne _ _ (by omega), upd_ne _ _ (by omega), b]

theorem sides_spec {left right lo hi : ℕ} (hlr : left ≠ right) (hn : lo + 2 ≤ hi) (dests : ℕ → ℤ) (nb0 : Topology) :
    ∃ nd nb, sides left right lo hi dests nb0 = some (nd, nb) ∧
      (∀ r, Strt lo hi r → nb left r = ((hi : ℤ), (hi : ℤ)) ∧ nb right r = (dests (hi - lo), dests (hi - lo))) ∧
      (∀ r, lo ≤ r → r ≤ hi → ¬Strt lo hi r → nb left r =
        ((wire lo hi r (decide (r = canon lo r)) : ℤ), (wire lo hi r (if (hi - lo + 1) % 2 = 0 ∧ canon lo r = hi - 1 then
          decide (r = canon lo r) else !decide (r = canon lo r)) : ℤ)) ∧
        nb right r = (dests (r - lo), dests (other lo r - lo))) ∧
      (∀ c r, ¬((c = left ∨ c = right) ∧ lo ≤ r ∧ r ≤ hi) → nb c r = nb0 c r) ∧
      (∀ k, k < (hi - lo + 1) / 2 → nd k = ((lo + 2 * k : ℕ) : ℤ)) ∧
      (∀ k, (hi - lo + 1) / 2 + k ≤ hi - lo → nd ((hi - lo + 1) / 2 + k) = ((if lo + 2 * k + 1 ≤ hi then lo + 2 * k + 1 else hi : ℕ) : ℤ)) := by
  obtain ⟨nd, nb, e, h1, h2, h3⟩ := switches_spec (lo := lo) (hi := hi) hlr dests (fun _ => -1) nb0 ((hi - lo + 1) / 2) (by omega)
  unfold sides
  simp only
  rw [e, Option.bind_some]
  by_cases ho : (hi - lo + 1) % 2 = 1
  · rw [if_pos ho]
    refine ⟨_, _, rfl, ?_, ?_, ?_, ?_, ?_⟩
    · rintro r ⟨_, rfl⟩
      refine ⟨?_, ?_⟩
      · rw [upd2_col _ _ _ hlr, upd2_same, upd_same]
      · rw [upd2_same, upd_same]
    · intro r r1 r2 hs
      have hr : r ≠ hi := fun h => hs ⟨ho, h⟩
      rw [upd2_row _ _ _ hr, upd2_row _ _ _ hr, upd2_row _ _ _ hr, upd2_row _ _ _ hr, if_neg (by omega)]
      exact h1 r r1 (by omega)
    · intro c r hcr
      rw [← h2 c r (by omega)]
      by_cases hc : c = left ∨ c = right
      · rw [upd2_row _ _ _ (by omega), upd2_row _ _ _ (by omega)]
      · rw [upd2_col _ _ _ (by omega), upd2_col _ _ _ (by omega)]
    · intro k hk
      rw [upd_ne _ _ (by omega)]
      exact (h3 k hk).1
    · intro k hk
      by_cases hk' : (hi - lo + 1) / 2 + k = hi - lo
      · rw [hk', upd_same, if_neg (by omega)]
      · rw [upd_ne _ _ hk', if_pos (by omega)]
        exact (h3 k (by omega)).2
  · rw [if_neg ho]
    refine ⟨_, _, rfl, ?_, ?_, ?_, ?_, ?_⟩
    · rintro r ⟨h, _⟩; exact absurd h ho
    · intro r r1 r2 hs
      obtain ⟨a, b⟩ := h1 r r1 (by omega)
      refine ⟨?_, by rw [upd2_col _ _ _ (Ne.symm hlr), upd2_col _ _ _ (Ne.symm hlr)]; exact b⟩
      by_cases hr : r = hi
      · subst hr
        dsimp only
        rw [upd2_same, upd_same, upd2_same, upd_ne _ _ (by omega), a, if_pos ⟨by omega, by unfold canon; omega⟩]
      · rw [upd2_row _ _ _ hr]
        by_cases hr' : r = hi - 1
        · subst hr'
          dsimp only
          rw [upd2_same, upd_same, a, if_pos ⟨by omega, by unfold canon; omega⟩]
        · rw [upd2_row _ _ _ hr', if_neg (by unfold canon; omega)]
          exact a
    · intro c r hcr
      rw [← h2 c r (by omega)]
      by_cases hc : c = left ∨ c = right
      · rw [upd2_row _ _ _ (by omega), upd2_row _ _ _ (by omega)]
      · rw [upd2_col _ _ _ (by omega), upd2_col _ _ _ (by omega)]
    · intro k hk
      exact (h3 k hk).1
    · intro k hk
      rw [if_pos (by omega)]
      exact (h3 k (by omega)).2

theorem straightEdges_spec (left right lo : ℕ) (dests : ℕ → ℤ) (nb0 : Topology) : ∀ (k c r : ℕ),
    straightEdges left right lo dests k nb0 c r =
      if c = right ∧ lo ≤ r ∧ r < lo + k then (dests (r - lo), dests (r - lo))
      else if c = left ∧ lo ≤ r ∧ r < lo + k then ((r : ℤ), (r : ℤ)) else nb0 c r
  | 0, c, r => by
    rw [if_neg (by omega), if_neg (by omega)]; rfl
  | k + 1, c, r => by
    have ih := straightEdges_spec left right lo dests nb0 k
    unfold straightEdges
    by_cases hr : r = lo + k
    · subst hr
      have e : lo + k - lo = k := by omega
      by_cases h1 : c = right
      · subst h1
        rw [upd2_same, upd_same, if_pos ⟨rfl, by omega, by omega⟩, e]
      · rw [upd2_col _ _ _ h1, if_neg (by simp [h1])]
        by_cases h2 : c = left
        · subst h2
          rw [upd2_same, upd_same, if_pos ⟨rfl, by omega, by omega⟩]
        · rw [upd2_col _ _ _ h2, ih, if_neg (by simp [h1]), if_neg (by simp [h2]), if_neg (by simp [h2])]
    · have e : upd2 (upd2 (straightEdges left right lo dests k nb0) left (lo + k) ((lo + k : ℕ), (lo + k : ℕ))) right (lo + k)
          (dests k, dests k) c r = straightEdges left right lo dests k nb0 c r := by
        rw [upd2_row _ _ _ hr, upd2_row _ _ _ hr]
      rw [e, ih]
      have : (r < lo + (k + 1)) = (r < lo + k) := by apply propext; omega
      simp only [this]

/-! ## Widths -/

theorem numColumns_inner {n : ℕ} (h : 3 ≤ n) : numColumns (n / 2) + 2 ≤ numColumns n ∧ numColumns ((n + 1) / 2) + 2 = numColumns n ∧
    numColumns n % 2 = 1 := by
  have e : Nat.clog 2 n = Nat.clog 2 ((n + 1) / 2) + 1 := Nat.clog_of_two_le (by omega) (by omega)
  have p : 1 ≤ Nat.clog 2 ((n + 1) / 2) := Nat.clog_pos (by omega) (by omega)
  have m : Nat.clog 2 (n / 2) ≤ Nat.clog 2 ((n + 1) / 2) := Nat.clog_mono_right 2 (by omega)
  unfold numColumns
  rw [if_pos (show 1 < n by omega), if_pos (show 1 < (n + 1) / 2 by omega)]
  split <;> omega

theorem numColumns_two : numColumns 2 = 1 := by
  unfold numColumns
  rw [if_pos (by omega), Nat.clog_of_two_le (by omega) (by omega)]
  simp

theorem numColumns_one : numColumns 1 = 0 := by simp [numColumns]

theorem numColumns_odd {n : ℕ} (h : 2 ≤ n) : numColumns n % 2 = 1 := by
  by_cases h2 : n = 2
  · rw [h2, numColumns_two]
  · exact (numColumns_inner (by omega)).2.2

/-! ## A subnetwork -/

/-- Switches and recorded settings of a block of the network fit together -/
def Shape (left right lo hi : ℕ) (nb : Topology) (rt : Routing) : Prop :=
  ∀ c r, left ≤ c → c ≤ right → lo ≤ r → r ≤ hi →
    (∀ b, rt c r = some b → r + 1 ≤ hi ∧ rt c (r + 1) = none ∧ (nb c r).1 ≠ (nb c r).2 ∧ nb c (r + 1) = (nb c r).swap) ∧
    ((nb c r).1 ≠ (nb c r).2 → (∃ b, rt c r = some b) ∨ (lo < r ∧ ∃ b, rt c (r - 1) = some b))

/-- What a block of the network does -/
def Delivers (left right lo hi : ℕ) (d : ℕ → ℕ) (π : ℕ → ℕ) (nb : Topology) (rt : Routing) : Prop :=
  ∀ nb' rt', (∀ c r, left ≤ c → c ≤ right → lo ≤ r → r ≤ hi → nb' c r = nb c r) →
    (∀ c r, left ≤ c → c ≤ right → lo ≤ r → r ≤ hi → rt' c r = rt c r) → UpperOnly rt' →
    ∀ i, lo ≤ i → i ≤ hi → travel nb' rt' left (right - left + 1) i = some (d (π i - lo))

set_option maxHeartbeats 1600000 in
theorem net_inner : ∀ (F left right lo hi : ℕ) (dests : ℕ → ℤ) (d : ℕ → ℕ) (nb0 : Topology) (rt0 : Routing) (π inv : ℕ → ℕ),
    left ≤ right → (right - left) % 2 = 0 → lo ≤ hi → numColumns (hi - lo + 1) ≤ right - left + 1 → right - left + 1 ≤ F →
    PermOn lo hi π inv → (∀ k, k ≤ hi - lo → dests k = (d k : ℤ)) → (∀ j k, j ≤ hi - lo → k ≤ hi - lo → d j = d k → j = k) →
    (∀ c r, left ≤ c → c ≤ right → lo ≤ r → r ≤ hi → rt0 c r = none) →
    ∃ nb rt, construct F left right lo hi dests nb0 = some nb ∧ routeInner F left right lo hi π inv rt0 = some rt ∧
      (∀ c r, ¬(left ≤ c ∧ c ≤ right ∧ lo ≤ r ∧ r ≤ hi) → nb c r = nb0 c r) ∧
      (∀ c r, ¬(left ≤ c ∧ c ≤ right ∧ lo ≤ r ∧ r ≤ hi) → rt c r = rt0 c r) ∧
      Shape left right lo hi nb rt ∧ Delivers left right lo hi d π nb rt
  | 0, left, right, lo, hi, dests, d, nb0, rt0, π, inv, hlr, _, _, _, hF, _, _, _, _ => by omega
  | F + 1, left, right, lo, hi, dests, d, nb0, rt0, π, inv, hlr, hpar, hlh, hw, hF, hp, hd, hinj, h0 => by
    have hcond : ¬ left > right := by omega
    unfold construct routeInner
    simp only [hcond, if_false, show ¬(right - left + 1 < numColumns (hi - lo + 1)) by omega]
    by_cases hbig : numColumns (hi - lo + 1) < right - left + 1
    · -- straight edges
      simp only [hbig, if_true]
      have hse := straightEdges_spec left right lo dests nb0 (hi - lo + 1)
      have hinR : ∀ r, (lo ≤ r ∧ r < lo + (hi - lo + 1)) ↔ (lo ≤ r ∧ r ≤ hi) := fun r => by omega
      by_cases hlr' : left = right
      · -- one packet, one column
        subst hlr'
        have hn : hi = lo := by
          by_contra hne
          have := numColumns_odd (n := hi - lo + 1) (by omega)
          omega
        subst hn
        have c1 : construct F (left + 1) (left - 1) hi hi (fun k => ((hi + k : ℕ) : ℤ)) (straightEdges left left hi dests (hi - hi + 1) nb0) =
            some (straightEdges left left hi dests (hi - hi + 1) nb0) := by
          cases F <;> simp only [construct, show left + 1 > left - 1 by omega, if_true]
        have c2 : routeInner F (left + 1) (left - 1) hi hi π inv rt0 = some rt0 := by
          cases F <;> simp only [routeInner, show left + 1 > left - 1 by omega, if_true]
        refine ⟨_, _, c1, c2, ?_, fun _ _ _ => rfl, ?_, ?_⟩
        · intro c r hcr
          rw [hse, if_neg, if_neg]
          · rintro ⟨rfl, a⟩; exact hcr ⟨le_rfl, le_rfl, by omega⟩
          · rintro ⟨rfl, a⟩; exact hcr ⟨le_rfl, le_rfl, by omega⟩
        · intro c r h1 h2 h3 h4
          have hc : c = left := by omega
          subst hc
          refine ⟨fun b hb => ?_, fun hne => ?_⟩
          · rw [h0 c r le_rfl le_rfl h3 h4] at hb; cases hb
          · rw [hse, if_pos ⟨rfl, by omega⟩] at hne
            exact absurd rfl hne
        · intro nb' rt' hnb hrt _ i i1 i2
          have hi' : i = hi := by omega
          subst hi'
          obtain ⟨p1, p2, _⟩ := hp.fwd i i1 i2
          have hpi : π i = i := by omega
          rw [hpi, show left - left + 1 = 0 + 1 by omega]
          unfold travel
          rw [hop_wire (q := d (i - i))]
          · rfl
          · rw [hnb left i le_rfl le_rfl i1 i2, hse, if_pos ⟨rfl, by omega⟩, hd (i - i) (by omega)]
      · have h2 : left + 2 ≤ right := by omega
        obtain ⟨nb, rt, e1, e2, f1, f2, sh, dl⟩ := net_inner F (left + 1) (right - 1) lo hi (fun k => ((lo + k : ℕ) : ℤ)) (fun k => lo + k)
          (straightEdges left right lo dests (hi - lo + 1) nb0) rt0 π inv (by omega) (by omega) hlh
          (by
            by_cases hn : hi = lo
            · rw [hn, show lo - lo + 1 = 1 by omega, numColumns_one]; omega
            · have := numColumns_odd (n := hi - lo + 1) (by omega)
              omega)
          (by omega) hp (fun k _ => rfl) (fun j k _ _ h => by omega)
          (fun c r c1 c2 r1 r2 => h0 c r (by omega) (by omega) r1 r2)
        have hrn : ∀ c r, (c = left ∨ c = right) → lo ≤ r → r ≤ hi → rt c r = none := by
          intro c r hc r1 r2
          rw [f2 c r (by omega)]
          exact h0 c r (by omega) (by omega) r1 r2
        have hnl : ∀ r, lo ≤ r → r ≤ hi → nb left r = ((r : ℤ), (r : ℤ)) := by
          intro r r1 r2
          rw [f1 left r (by omega), hse, if_neg (by intro h; exact hlr' h.1), if_pos ⟨rfl, by omega⟩]
        have hnr : ∀ r, lo ≤ r → r ≤ hi → nb right r = ((d (r - lo) : ℤ), (d (r - lo) : ℤ)) := by
          intro r r1 r2
          rw [f1 right r (by omega), hse, if_pos ⟨rfl, by omega⟩, hd (r - lo) (by omega)]
        refine ⟨nb, rt, e1, e2, ?_, ?_, ?_, ?_⟩
        · intro c r hcr
          rw [f1 c r (by omega), hse, if_neg (by omega), if_neg (by omega)]
        · intro c r hcr
          exact f2 c r (by omega)
        · intro c r c1 c2 r1 r2
          by_cases hc : c = left ∨ c = right
          · refine ⟨fun b hb => ?_, fun hne => ?_⟩
            · rw [hrn c r hc r1 r2] at hb; cases hb
            · rcases hc with hc | hc
              · rw [hc, hnl r r1 r2] at hne; exact absurd rfl hne
              · rw [hc, hnr r r1 r2] at hne; exact absurd rfl hne
          · exact sh c r (by omega) (by omega) r1 r2
        · intro nb' rt' hnb hrt hu i i1 i2
          obtain ⟨p1, p2, _⟩ := hp.fwd i i1 i2
          rw [show right - left + 1 = 1 + ((right - 1 - (left + 1) + 1) + 1) by omega, travel_append]
          have s1 : travel nb' rt' left 1 i = some i := by
            unfold travel travel
            rw [hop_wire (q := i) (by rw [hnb left i le_rfl (by omega) i1 i2, hnl i i1 i2])]; rfl
          rw [s1, Option.bind_some, travel_append,
            dl nb' rt' (fun c r c1 c2 r1 r2 => hnb c r (by omega) (by omega) r1 r2)
              (fun c r c1 c2 r1 r2 => hrt c r (by omega) (by omega) r1 r2) hu i i1 i2, Option.bind_some,
            show left + 1 + (right - 1 - (left + 1) + 1) = right by omega,
            show (fun k => lo + k) (π i - lo) = π i by show lo + (π i - lo) = π i; omega]
          unfold travel travel
          rw [hop_wire (q := d (π i - lo)) (by rw [hnb right _ (by omega) le_rfl p1 p2, hnr _ p1 p2])]; rfl
    · have hweq : numColumns (hi - lo + 1) = right - left + 1 := by omega
      simp only [hbig, if_false]
      by_cases hn2 : hi - lo + 1 = 2
      · -- one switch
        simp only [hn2, if_true]
        rw [hn2, numColumns_two] at hweq
        have hlr' : right = left := by omega
        have hh : hi = lo + 1 := by omega
        subst hlr' hh
        obtain ⟨p1, p2, p3⟩ := hp.fwd lo le_rfl (by omega)
        obtain ⟨q1, q2, q3⟩ := hp.fwd (lo + 1) (by omega) le_rfl
        have hne : π lo ≠ π (lo + 1) := fun h => by
          have := hp.inj le_rfl (by omega) (by omega) le_rfl h; omega
        rw [if_pos ⟨by omega, by omega, hne⟩]
        have hd01 : d 0 ≠ d 1 := fun h => by have := hinj 0 1 (by omega) (by omega) h; omega
        have n0 : (upd2 (upd2 nb0 right lo (dests 0, dests 1)) right (lo + 1) (dests 1, dests 0)) right lo = ((d 0 : ℤ), (d 1 : ℤ)) := by
          rw [upd2_same, upd_ne _ _ (by omega), upd2_same, upd_same, hd 0 (by omega), hd 1 (by omega)]
        have n1 : (upd2 (upd2 nb0 right lo (dests 0, dests 1)) right (lo + 1) (dests 1, dests 0)) right (lo + 1) = ((d 1 : ℤ), (d 0 : ℤ)) := by
          rw [upd2_same, upd_same, hd 0 (by omega), hd 1 (by omega)]
        have r0 : upd2 rt0 right lo (some (decide (π lo ≠ lo))) right lo = some (decide (π lo ≠ lo)) := by
          rw [upd2_same, upd_same]
        have r1 : upd2 rt0 right lo (some (decide (π lo ≠ lo))) right (lo + 1) = none := by
          rw [upd2_same, upd_ne _ _ (by omega), h0 right (lo + 1) le_rfl le_rfl (by omega) (by omega)]
        refine ⟨_, _, rfl, rfl, ?_, ?_, ?_, ?_⟩
        · intro c r hcr
          by_cases hc : c = right
          · rw [upd2_row _ _ _ (by omega), upd2_row _ _ _ (by omega)]
          · rw [upd2_col _ _ _ hc, upd2_col _ _ _ hc]
        · intro c r hcr
          by_cases hc : c = right
          · rw [upd2_row _ _ _ (by omega)]
          · rw [upd2_col _ _ _ hc]
        · intro c r c1 c2 h3 h4
          have hc : c = right := by omega
          subst hc
          by_cases hr : r = lo
          · subst hr
            refine ⟨fun b hb => ⟨by omega, r1, ?_, ?_⟩, fun _ => Or.inl ⟨_, r0⟩⟩
            · rw [n0]; intro h; exact hd01 (Int.ofNat.inj h)
            · rw [n1, n0]; rfl
          · have : r = lo + 1 := by omega
            subst this
            refine ⟨fun b hb => ?_, fun _ => Or.inr ⟨by omega, _, r0⟩⟩
            rw [r1] at hb; cases hb
        · intro nb' rt' hnb hrt hu i i1 i2
          rw [show right - right + 1 = 0 + 1 by omega]
          unfold travel
          have hs0 : rt' right lo = some (decide (π lo ≠ lo)) := by rw [hrt right lo le_rfl le_rfl le_rfl (by omega), r0]
          by_cases hi0 : i = lo
          · subst hi0
            rw [hop_switch (by rw [hnb right i le_rfl le_rfl le_rfl (by omega), n0]) hd01 (setting_upper hu hs0), Option.bind_some]
            unfold travel
            by_cases hpi : π i = i
            · simp [hpi]
            · have : π i = i + 1 := by omega
              simp [this]
          · have : i = lo + 1 := by omega
            subst this
            rw [hop_switch (by rw [hnb right (lo + 1) le_rfl le_rfl (by omega) le_rfl, n1]) (Ne.symm hd01) (setting_lower hu hs0), Option.bind_some]
            unfold travel
            by_cases hpi : π lo = lo
            · have : π (lo + 1) = lo + 1 := by omega
              simp [hpi, this]
            · have : π (lo + 1) = lo := by omega
              simp [hpi, this]
      · simp only [hn2, if_false]
        have hn1 : hi - lo + 1 ≠ 1 := by
          intro h; rw [h, numColumns_one] at hweq; omega
        have hn : lo + 2 ≤ hi := by omega
        obtain ⟨w1, w2, w3⟩ := numColumns_inner (n := hi - lo + 1) (by omega)
        have hlr2 : left + 2 ≤ right := by omega
        have hlr' : left ≠ right := by omega
        obtain ⟨nd, nb1, es, a1, a2, a3, a4, a5⟩ := sides_spec hlr' hn dests nb0
        obtain ⟨s0, s, e0, el, fin⟩ := level_spec (rt0 := rt0) hp hlr' hn
          (fun c r hc r1 r2 => h0 c r (by omega) (by omega) r1 r2)
        obtain ⟨pu, pl⟩ := fin.perms hp hn
        have fsp := fin.spec hp hn
        have hth : topHeight (hi - lo + 1) = (hi - lo + 1) / 2 := rfl
        rw [hth] at pu pl
        -- the settings after the erasure
        obtain ⟨rt1, hrt1⟩ : ∃ rt1, rt1 = (if (hi - lo + 1) % 2 = 0 then upd2 s.rt left (hi - 1) none else s.rt) := ⟨_, rfl⟩
        have rt1c : ∀ c, c ≠ left → rt1 c = s.rt c := by
          intro c hc; rw [hrt1]; split
          · exact upd2_col _ _ _ hc
          · rfl
        have rt1l : ∀ r, rt1 left r = if (hi - lo + 1) % 2 = 0 ∧ r = hi - 1 then none else s.rt left r := by
          intro r; rw [hrt1]
          by_cases h : (hi - lo + 1) % 2 = 0
          · rw [if_pos h, upd2_same]; unfold upd; simp [h]
          · rw [if_neg h, if_neg (by simp [h])]
        have rt1f : ∀ c r, ¬((c = left ∨ c = right) ∧ lo ≤ r ∧ r ≤ hi) → rt1 c r = rt0 c r := by
          intro c r hcr
          rw [← fin.frame c r hcr]
          by_cases hc : c = left
          · subst hc; rw [rt1l, if_neg (by omega)]
          · rw [rt1c c hc]
        rw [es, Option.bind_some, e0, Option.bind_some, el, Option.bind_some]
        simp only [hth, ← hrt1]
        -- the upper network
        obtain ⟨nb2, rt2, u1, u2, uf1, uf2, ush, udl⟩ := net_inner F (left + 1) (right - 1) lo (lo + (hi - lo + 1) / 2 - 1) nd (fun k => lo + 2 * k)
          nb1 rt1 s.np s.npi (by omega) (by omega) (by omega)
          (by rw [show lo + (hi - lo + 1) / 2 - 1 - lo + 1 = (hi - lo + 1) / 2 by omega]; omega)
          (by omega) pu (fun k hk => a4 k (by omega)) (fun j k _ _ h => by have h : lo + 2 * j = lo + 2 * k := h; omega)
          (fun c r c1 c2 r1 r2 => by rw [rt1f c r (by omega)]; exact h0 c r (by omega) (by omega) (by omega) (by omega))
        -- the lower network
        obtain ⟨nb3, rt3, l1, l2, lf1, lf2, lsh, ldl⟩ := net_inner F (left + 1) (right - 1) (lo + (hi - lo + 1) / 2) hi
          (fun k => nd ((hi - lo + 1) / 2 + k)) (fun k => if lo + 2 * k + 1 ≤ hi then lo + 2 * k + 1 else hi)
          nb2 rt2 s.np s.npi (by omega) (by omega) (by omega)
          (by rw [show hi - (lo + (hi - lo + 1) / 2) + 1 = (hi - lo + 1 + 1) / 2 by omega]; omega)
          (by omega) pl (fun k hk => a5 k (by omega))
          (fun j k hj hk h => by
            have h : (if lo + 2 * j + 1 ≤ hi then lo + 2 * j + 1 else hi) = (if lo + 2 * k + 1 ≤ hi then lo + 2 * k + 1 else hi) := h
            split at h <;> split at h <;> omega)
          (fun c r c1 c2 r1 r2 => by
            rw [uf2 c r (by omega), rt1f c r (by omega)]; exact h0 c r (by omega) (by omega) (by omega) (by omega))
        -- what the final tables look like
        have nbO : ∀ c r, (c = left ∨ c = right) → nb3 c r = nb1 c r := fun c r hc => by
          rw [lf1 c r (by omega), uf1 c r (by omega)]
        have rtO : ∀ c r, (c = left ∨ c = right) → rt3 c r = rt1 c r := fun c r hc => by
          rw [lf2 c r (by omega), uf2 c r (by omega)]
        have keyL : ∀ r b, lo ≤ r → r ≤ hi → rt3 left r = some b →
            s.rt left r = some b ∧ (r - lo) % 2 = 0 ∧ r + 1 ≤ hi ∧ ¬((hi - lo + 1) % 2 = 0 ∧ r = hi - 1) := by
          intro r b r1 r2 hb
          rw [rtO left r (Or.inl rfl), rt1l] at hb
          split at hb
          · cases hb
          · rename_i hne
            obtain ⟨x1, x2, _⟩ := fin.core.fdef r b r1 r2 hb
            exact ⟨hb, x1, x2, hne⟩
        have keyR : ∀ r b, lo ≤ r → r ≤ hi → rt3 right r = some b → s.rt right r = some b ∧ (r - lo) % 2 = 0 ∧ r + 1 ≤ hi := by
          intro r b r1 r2 hb
          rw [rtO right r (Or.inr rfl), rt1c right (Ne.symm hlr')] at hb
          obtain ⟨x1, x2, _⟩ := fin.core.gdef r b r1 r2 hb
          exact ⟨hb, x1, x2⟩
        have decL : ∀ r, lo ≤ r → r ≤ hi → ¬Strt lo hi r → ¬((hi - lo + 1) % 2 = 0 ∧ canon lo r = hi - 1) →
            ∃ t, dec lo hi (s.rt left) r = some t ∧ rt3 left (canon lo r) = some (settingOf lo r t) := by
          intro r r1 r2 hs hne
          obtain ⟨t, t1, _⟩ := fsp r r1 r2
          refine ⟨t, t1, ?_⟩
          rw [rtO left _ (Or.inl rfl), rt1l, if_neg hne]
          exact setting_of_dec hs t1
        have decR : ∀ r t, ¬Strt lo hi r → dec lo hi (s.rt right) r = some t → rt3 right (canon lo r) = some (settingOf lo r t) := by
          intro r t hs ht
          rw [rtO right _ (Or.inr rfl), rt1c right (Ne.symm hlr')]
          exact setting_of_dec hs ht
        have wne : ∀ r, wire lo hi r true ≠ wire lo hi r false := by
          intro r; unfold wire topHeight; simp; omega
        refine ⟨nb3, rt3, ?_, ?_, ?_, ?_, ?_, ?_⟩
        · rw [u1, Option.bind_some, l1]
        · rw [u2, Option.bind_some, l2]
        · intro c r hcr
          rw [lf1 c r (by omega), uf1 c r (by omega), a3 c r (by omega)]
        · intro c r hcr
          rw [lf2 c r (by omega), uf2 c r (by omega), rt1f c r (by omega)]
        · -- shape
          intro c r c1 c2 r1 r2
          by_cases hcl : c = left
          · subst hcl
            rw [nbO c r (Or.inl rfl)]
            constructor
            · intro b hb
              obtain ⟨x1, x2, x3, x4⟩ := keyL r b r1 r2 hb
              have hcr : canon lo r = r := by unfold canon; omega
              have hor : other lo r = r + 1 := by unfold other; rw [hcr]; omega
              have hcr' : canon lo (r + 1) = r := by unfold canon; omega
              have hs : ¬Strt lo hi r := by unfold Strt; omega
              have hs' : ¬Strt lo hi (r + 1) := by unfold Strt; omega
              refine ⟨x3, ?_, ?_, ?_⟩
              · rcases hk : rt3 c (r + 1) with _ | b'
                · rfl
                · have := (keyL (r + 1) b' (by omega) x3 hk).2.1; omega
              · rw [(a2 r r1 r2 hs).1, if_neg (by rw [hcr]; exact x4)]
                simp only [hcr, decide_true, Bool.not_true]
                intro h; exact wne r (Int.ofNat.inj h)
              · rw [nbO c (r + 1) (Or.inl rfl), (a2 (r + 1) (by omega) x3 hs').1, (a2 r r1 r2 hs).1, if_neg (by rw [hcr']; exact x4),
                  if_neg (by rw [hcr]; exact x4)]
                simp only [hcr, hcr', decide_true, Bool.not_true]
                have hw : ∀ t, wire lo hi (r + 1) t = wire lo hi r t := by
                  intro t; unfold wire; rw [show (r + 1 - lo) / 2 = (r - lo) / 2 by omega]
                simp [hw, Prod.swap]
            · intro hne
              by_cases hs : Strt lo hi r
              · rw [(a1 r hs).1] at hne; exact absurd rfl hne
              · have hx : ¬((hi - lo + 1) % 2 = 0 ∧ canon lo r = hi - 1) := by
                  intro hx; rw [(a2 r r1 r2 hs).1, if_pos hx] at hne; exact absurd rfl hne
                obtain ⟨t, _, t2⟩ := decL r r1 r2 hs hx
                rcases canon_cases r1 with h | h
                · left; exact ⟨_, by rw [← h] at t2; exact t2⟩
                · right
                  have := canon_lo lo r
                  exact ⟨by omega, _, by rw [show r - 1 = canon lo r by omega]; exact t2⟩
          · by_cases hcr0 : c = right
            · subst hcr0
              rw [nbO c r (Or.inr rfl)]
              constructor
              · intro b hb
                obtain ⟨x1, x2, x3⟩ := keyR r b r1 r2 hb
                have hcr : canon lo r = r := by unfold canon; omega
                have hor : other lo r = r + 1 := by unfold other; rw [hcr]; omega
                have hor' : other lo (r + 1) = r := by unfold other canon; omega
                have hs : ¬Strt lo hi r := by unfold Strt; omega
                have hs' : ¬Strt lo hi (r + 1) := by unfold Strt; omega
                refine ⟨x3, ?_, ?_, ?_⟩
                · rcases hk : rt3 c (r + 1) with _ | b'
                  · rfl
                  · have := (keyR (r + 1) b' (by omega) x3 hk).2.1; omega
                · rw [(a2 r r1 r2 hs).2, hor, hd _ (by omega), hd _ (by omega)]
                  intro h
                  have := hinj _ _ (by omega) (by omega) (Int.ofNat.inj h)
                  omega
                · rw [nbO c (r + 1) (Or.inr rfl), (a2 (r + 1) (by omega) x3 hs').2, (a2 r r1 r2 hs).2, hor, hor']
                  rfl
              · intro hne
                by_cases hs : Strt lo hi r
                · rw [(a1 r hs).2] at hne; exact absurd rfl hne
                · obtain ⟨q1, q2, q3⟩ := hp.bwd r r1 r2
                  obtain ⟨t, _, t1, _⟩ := fsp _ q1 q2
                  rw [q3] at t1
                  have t2 := decR r t hs t1
                  rcases canon_cases r1 with h | h
                  · left; exact ⟨_, by rw [← h] at t2; exact t2⟩
                  · right
                    have := canon_lo lo r
                    exact ⟨by omega, _, by rw [show r - 1 = canon lo r by omega]; exact t2⟩
            · -- inside
              by_cases hup : r ≤ lo + (hi - lo + 1) / 2 - 1
              · have fr : ∀ r', r' ≤ lo + (hi - lo + 1) / 2 - 1 → nb3 c r' = nb2 c r' ∧ rt3 c r' = rt2 c r' := fun r' h =>
                  ⟨lf1 c r' (by omega), lf2 c r' (by omega)⟩
                obtain ⟨g1, g2⟩ := ush c r (by omega) (by omega) r1 hup
                rw [(fr r hup).1, (fr r hup).2]
                constructor
                · intro b hb
                  obtain ⟨y1, y2, y3, y4⟩ := g1 b hb
                  rw [(fr (r + 1) y1).1, (fr (r + 1) y1).2]
                  exact ⟨by omega, y2, y3, y4⟩
                · intro hne
                  rcases g2 hne with h | h
                  · exact Or.inl h
                  · right; rw [(fr (r - 1) (by omega)).2]; exact h
              · obtain ⟨g1, g2⟩ := lsh c r (by omega) (by omega) (by omega) r2
                refine ⟨g1, fun hne => ?_⟩
                rcases g2 hne with h | h
                · exact Or.inl h
                · exact Or.inr ⟨by omega, h.2⟩
        · -- delivery
          intro nb' rt' hnb hrt hu i i1 i2
          obtain ⟨p1, p2, p3⟩ := hp.fwd i i1 i2
          obtain ⟨t, t1, t2, t3, t4⟩ := fsp i i1 i2
          have ts : Strt lo hi i → t = false := fun h => by rw [dec_strt h] at t1; exact (Option.some.inj t1).symm
          have ts' : Strt lo hi (π i) → t = false := fun h => by rw [dec_strt h] at t2; exact (Option.some.inj t2).symm
          -- the first column
          have s1 : hop nb' rt' left i = some (wire lo hi i t) := by
            have hnbi : nb' left i = nb1 left i := by rw [hnb left i le_rfl (by omega) i1 i2, nbO left i (Or.inl rfl)]
            by_cases hs : Strt lo hi i
            · rw [ts hs]
              apply hop_wire
              rw [hnbi, (a1 i hs).1, hs.2, wire_hi hlh]
            · by_cases hx : (hi - lo + 1) % 2 = 0 ∧ canon lo i = hi - 1
              · have hti : t = decide (i = canon lo i) := by
                  have hpre := fin.pre hx.1
                  rcases canon_cases i1 with h | h
                  · have ho : other lo i = hi := by unfold other; omega
                    have := dec_other i1 i2 hs t1
                    rw [ho, hpre] at this
                    have := Option.some.inj this
                    rw [show decide (i = canon lo i) = true by simp [← h]]
                    cases t
                    · cases this
                    · rfl
                  · have ho : i = hi := by omega
                    rw [ho, hpre] at t1
                    rw [show decide (i = canon lo i) = false by simp; omega]
                    exact (Option.some.inj t1).symm
                apply hop_wire
                rw [hnbi, (a2 i i1 i2 hs).1, if_pos hx, hti]
              · obtain ⟨t', t1', t2'⟩ := decL i i1 i2 hs hx
                rw [t1] at t1'
                have := Option.some.inj t1'
                subst this
                have hset : setting rt' left i = some (settingOf lo i t) := by
                  have hcl := canon_hi i1 i2 hs
                  have h' : rt' left (canon lo i) = some (settingOf lo i t) := by
                    rw [hrt left _ le_rfl (by omega) (canon_lo _ _) (by omega), t2']
                  rcases canon_cases i1 with h | h
                  · have := setting_upper hu h'
                    rw [← h] at this; exact this
                  · have := setting_lower hu h'
                    rw [← h] at this; exact this
                have := (a2 i i1 i2 hs).1
                rw [if_neg hx] at this
                rw [hop_switch (hnbi.trans this) (by
                  cases decide (i = canon lo i)
                  · exact Ne.symm (wne i)
                  · exact wne i) hset]
                unfold settingOf
                cases decide (i = canon lo i) <;> cases t <;> rfl
          -- the inner networks
          have s2 : travel nb' rt' (left + 1) (right - 1 - (left + 1) + 1) (wire lo hi i t) =
              some (if t then canon lo (π i) else if canon lo (π i) + 1 ≤ hi then canon lo (π i) + 1 else hi) := by
            obtain ⟨v1, v2, v3⟩ := wire_range i1 i2 ts
            rw [hth] at v3
            cases t with
            | true =>
              have hv := v3.1 rfl
              have := udl nb' rt'
                (fun c r c1 c2 r1 r2 => by rw [hnb c r (by omega) (by omega) r1 (by omega), lf1 c r (by omega)])
                (fun c r c1 c2 r1 r2 => by rw [hrt c r (by omega) (by omega) r1 (by omega), lf2 c r (by omega)]) hu
                (wire lo hi i true) v1 (by omega)
              rw [this, t3]
              have : lo + 2 * (wire lo hi (π i) true - lo) = canon lo (π i) := by
                unfold wire canon; simp; omega
              simp only [if_true, this]
            | false =>
              have hv : ¬ wire lo hi i false < lo + (hi - lo + 1) / 2 := fun h => by have := v3.2 h; cases this
              have := ldl nb' rt'
                (fun c r c1 c2 r1 r2 => by rw [hnb c r (by omega) (by omega) (by omega) r2])
                (fun c r c1 c2 r1 r2 => by rw [hrt c r (by omega) (by omega) (by omega) r2]) hu
                (wire lo hi i false) (by omega) v2
              rw [this, t3]
              have : lo + 2 * (wire lo hi (π i) false - (lo + (hi - lo + 1) / 2)) = canon lo (π i) := by
                unfold wire topHeight canon; simp; omega
              simp only [this, Bool.false_eq_true, if_false]
          -- the last column
          have s3 : hop nb' rt' right (if t then canon lo (π i) else if canon lo (π i) + 1 ≤ hi then canon lo (π i) + 1 else hi) =
              some (d (π i - lo)) := by
            by_cases hs : Strt lo hi (π i)
            · have hq : ¬ canon lo (π i) + 1 ≤ hi := by
                have h1 := hs.1
                rw [hs.2]; unfold canon; omega
              simp only [ts' hs, Bool.false_eq_true, if_false, hq]
              apply hop_wire
              rw [hnb right hi (by omega) le_rfl hlh le_rfl, nbO right hi (Or.inr rfl), (a1 hi ⟨hs.1, rfl⟩).2, hs.2, hd _ le_rfl]
            · have hcl := canon_hi p1 p2 hs
              have hcl' := canon_lo lo (π i)
              have h' : rt' right (canon lo (π i)) = some (settingOf lo (π i) t) := by
                rw [hrt right _ (by omega) le_rfl (canon_lo _ _) (by omega), decR _ t hs t2]
              have hpar' := canon_parity lo (π i)
              have hs1 : ¬Strt lo hi (canon lo (π i)) := by unfold Strt; omega
              have hs2 : ¬Strt lo hi (canon lo (π i) + 1) := by unfold Strt; omega
              have ho1 : other lo (canon lo (π i)) = canon lo (π i) + 1 := by
                generalize canon lo (π i) = k at *
                unfold other canon; omega
              have ho2 : other lo (canon lo (π i) + 1) = canon lo (π i) := by
                generalize canon lo (π i) = k at *
                unfold other canon; omega
              have hdn : d (canon lo (π i) - lo) ≠ d (canon lo (π i) + 1 - lo) := fun h => by
                have := hinj _ _ (by omega) (by omega) h; omega
              simp only [hcl, if_true]
              cases t with
              | true =>
                simp only [if_true]
                have e := (a2 (canon lo (π i)) hcl' (by omega) hs1).2
                rw [ho1, hd _ (by omega), hd _ (by omega)] at e
                rw [hop_switch ((hnb right _ (by omega) le_rfl hcl' (by omega)).trans ((nbO right _ (Or.inr rfl)).trans e)) hdn (setting_upper hu h')]
                rcases canon_cases p1 with h | h
                · simp [settingOf, ← h]
                · have hne : ¬ (π i = canon lo (π i)) := by omega
                  simp [settingOf, hne]
                  rw [← h]
              | false =>
                simp only [Bool.false_eq_true, if_false]
                have e := (a2 (canon lo (π i) + 1) (by omega) hcl hs2).2
                rw [ho2, hd _ (by omega), hd _ (by omega)] at e
                rw [hop_switch ((hnb right _ (by omega) le_rfl (by omega) hcl).trans ((nbO right _ (Or.inr rfl)).trans e)) (Ne.symm hdn) (setting_lower hu h')]
                rcases canon_cases p1 with h | h
                · simp [settingOf, ← h]
                · have hne : ¬ (π i = canon lo (π i)) := by omega
                  simp [settingOf, hne]
                  rw [← h]
          rw [show right - left + 1 = 1 + ((right - 1 - (left + 1) + 1) + 1) by omega, travel_append]
          have s1' : travel nb' rt' left 1 i = some (wire lo hi i t) := by
            unfold travel travel; rw [s1]; rfl
          rw [s1', Option.bind_some, travel_append, s2, Option.bind_some, show left + 1 + (right - 1 - (left + 1) + 1) = right by omega]
          unfold travel travel
          rw [s3]; rfl

/-! ## The whole network -/

/-- a permutation of `0, …, n - 1` -/
def IsPerm (n : ℕ) (π : ℕ → ℕ) : Prop := (∀ i, i < n → π i < n) ∧ ∀ i j, i < n → j < n → π i = π j → i = j

theorem inverse_spec {n : ℕ} {π : ℕ → ℕ} (h : IsPerm n π) : ∀ m, m ≤ n → ∀ i, i < m →
    ((List.range m).foldl (fun inv i => upd inv (π i) i) id) (π i) = i
  | 0, _, i, hi => by omega
  | m + 1, hm, i, hi => by
    rw [List.range_succ, List.foldl_append, List.foldl_cons, List.foldl_nil]
    by_cases him : i = m
    · subst him; exact upd_same _ _ _
    · rw [upd_ne _ _ (fun e => him (h.2 i m (by omega) (by omega) e))]
      exact inverse_spec h m (by omega) i (by omega)

theorem permOn_of_isPerm {n : ℕ} {π : ℕ → ℕ} (hn : 1 ≤ n) (h : IsPerm n π) : PermOn 0 (n - 1) π (inverse n π) := by
  have hi : ∀ i, i < n → inverse n π (π i) = i := fun i hi => inverse_spec h n le_rfl i hi
  refine ⟨fun i _ h2 => ⟨Nat.zero_le _, by have := h.1 i (by omega); omega, hi i (by omega)⟩, fun j _ h2 => ?_⟩
  obtain ⟨i, h1, rfl⟩ : ∃ i, i < n ∧ π i = j := by
    let f : Fin n → Fin n := fun i => ⟨π i, h.1 i i.2⟩
    have hf : Function.Injective f := fun a b e => Fin.ext (h.2 a b a.2 b.2 (Fin.mk.inj e))
    obtain ⟨a, ha⟩ := (Finite.surjective_of_injective hf) ⟨j, by omega⟩
    exact ⟨a, a.2, by simpa [f] using congrArg Fin.val ha⟩
  rw [hi i h1]
  exact ⟨Nat.zero_le _, by omega, rfl⟩

theorem waksman_all {n : ℕ} (hn : 2 ≤ n) {π : ℕ → ℕ} (h : IsPerm n π) : ∃ nb rt, topology n = some nb ∧ getRouting n π = some rt ∧
    (∀ c r, ¬(c < numColumns n ∧ r < n) → nb c r = (-1, -1)) ∧ (∀ c r, ¬(c < numColumns n ∧ r < n) → rt c r = none) ∧
    Shape 0 (numColumns n - 1) 0 (n - 1) nb rt ∧ UpperOnly rt ∧
    ∀ i, i < n → travel nb rt 0 (numColumns n) i = some (π i) := by
  have ho := numColumns_odd hn
  obtain ⟨nb, rt, e1, e2, f1, f2, sh, dl⟩ := net_inner (numColumns n) 0 (numColumns n - 1) 0 (n - 1) (fun k => (k : ℤ)) id
    (fun _ _ => (-1, -1)) (fun _ _ => none) π (inverse n π) (by omega) (by omega) (by omega)
    (by rw [show n - 1 - 0 + 1 = n by omega]; omega) (by omega) (permOn_of_isPerm (by omega) h) (fun _ _ => rfl) (fun _ _ _ _ h => h)
    (fun _ _ _ _ _ _ => rfl)
  have hu : UpperOnly rt := by
    intro c k b hb
    by_cases hin : c < numColumns n ∧ k < n
    · exact ((sh c k (by omega) (by omega) (by omega) (by omega)).1 b hb).2.1
    · rw [f2 c k (by omega)] at hb; cases hb
  refine ⟨nb, rt, ?_, ?_, fun c r hcr => f1 c r (by omega), fun c r hcr => f2 c r (by omega), sh, hu, fun i hi => ?_⟩
  · unfold topology; rw [if_neg (by omega)]; exact e1
  · unfold getRouting; rw [if_neg (by omega)]; exact e2
  · have := dl nb rt (fun _ _ _ _ _ _ => rfl) (fun _ _ _ _ _ _ => rfl) hu i (by omega) (by omega)
    rw [show numColumns n - 1 - 0 + 1 = numColumns n by omega] at this
    simpa using this

/-- **C16**: for every number of packets and every permutation no assertion fails, the computed settings put every switch of the generated network, and
each packet travels from its input to the output the permutation asks for. -/
theorem c16_waksman_routes (n : ℕ) (hn : 2 ≤ n) (π : ℕ → ℕ) (h1 : ∀ i, i < n → π i < n) (h2 : ∀ i j, i < n → j < n → π i = π j → i = j) :
    ∃ nb rt, topology n = some nb ∧ getRouting n π = some rt ∧ ∀ i, i < n → travel nb rt 0 (numColumns n) i = some (π i) := by
  obtain ⟨nb, rt, e1, e2, _, _, _, _, e3⟩ := waksman_all hn ⟨h1, h2⟩
  exact ⟨nb, rt, e1, e2, e3⟩

/-- The network does not depend on the permutation, and its switches join adjacent rows: a setting is recorded exactly at the upper row of each switch, and
the two rows of a switch have the same two successors. -/
theorem c16_settings_at_upper_rows (n : ℕ) (hn : 2 ≤ n) (nb : Topology) (hnb : topology n = some nb) (π : ℕ → ℕ) (h1 : ∀ i, i < n → π i < n)
    (h2 : ∀ i j, i < n → j < n → π i = π j → i = j) : ∃ rt, getRouting n π = some rt ∧
      (∀ c r b, rt c r = some b → c < numColumns n ∧ r + 1 < n ∧ rt c (r + 1) = none ∧ (nb c r).1 ≠ (nb c r).2 ∧
        nb c (r + 1) = ((nb c r).2, (nb c r).1)) ∧
      ∀ c r, c < numColumns n → r < n → (nb c r).1 ≠ (nb c r).2 → (rt c r).isSome ∨ (1 ≤ r ∧ (rt c (r - 1)).isSome) := by
  obtain ⟨nb', rt, e1, e2, _, f2, sh, _, _⟩ := waksman_all hn ⟨h1, h2⟩
  obtain rfl := Option.some.inj (hnb.symm.trans e1)
  refine ⟨rt, e2, fun c r b hb => ?_, fun c r hc hr hne => ?_⟩
  · have hin : c < numColumns n ∧ r < n := by
      by_contra hne
      rw [f2 c r hne] at hb; cases hb
    obtain ⟨a1, a2, a3, a4⟩ := (sh c r (by omega) (by omega) (by omega) (by omega)).1 b hb
    exact ⟨hin.1, by omega, a2, a3, a4⟩
  · rcases (sh c r (by omega) (by omega) (by omega) (by omega)).2 hne with ⟨b, hb⟩ | ⟨h, b, hb⟩
    · left; rw [hb]; rfl
    · right; exact ⟨h, by rw [hb]; rfl⟩

/-- A single packet has no network: the generator's assertion fails. -/
theorem c16_single_packet_fails : topology 1 = none ∧ getRouting 1 id = none := ⟨rfl, rfl⟩

/-! The hypotheses are met, the results differ between permutations, and every step is exercised: an odd size with a wire, an inner network padded with
straight edges, a fixed switch. -/

example : (topology 5).isSome = true ∧ (getRouting 5 fun i => (3 * i + 1) % 5).isSome = true := by decide +kernel

example : ((topology 5).bind fun nb => (getRouting 5 fun i => (3 * i + 1) % 5).map fun rt =>
    (List.range 5).map fun i => travel nb rt 0 (numColumns 5) i) = some [some 1, some 4, some 2, some 0, some 3] := by decide +kernel

example : (∀ i, i < 5 → (3 * i + 1) % 5 < 5) ∧ ∀ i j, i < 5 → j < 5 → (3 * i + 1) % 5 = (3 * j + 1) % 5 → i = j := by
  refine ⟨fun i h => by omega, fun i j h1 h2 h => by omega⟩

/-- the settings of another permutation do not deliver this one -/
example : ((topology 4).bind fun nb => (getRouting 4 fun i => 3 - i).map fun rt =>
    (List.range 4).map fun i => travel nb rt 0 (numColumns 4) i) = some [some 3, some 2, some 1, some 0] := by decide +kernel

end Spu.Props

import Verif.Model.Waksman
import Mathlib.Tactic.Ring
import Mathlib.Tactic.Linarith
import Mathlib.Order.Interval.Finset.Nat

set_option autoImplicit false

/-! Lemmas on the routing loop of the AS-Waksman network: the invariant of the loop of `as_waksman_route_inner` -/

namespace Spu.Model.Waksman

/-! ## Positions -/

theorem canon_lo (lo i : ℕ) : lo ≤ canon lo i := by unfold canon; omega

theorem canon_cases {lo i : ℕ} (h : lo ≤ i) : i = canon lo i ∨ i = canon lo i + 1 := by unfold canon; omega

theorem canon_parity (lo i : ℕ) : (canon lo i - lo) % 2 = 0 := by unfold canon; omega

theorem other_canon {lo i : ℕ} (h : lo ≤ i) : canon lo (other lo i) = canon lo i := by unfold other canon; omega

theorem other_other {lo i : ℕ} (h : lo ≤ i) : other lo (other lo i) = i := by unfold other canon; omega

theorem other_ne {lo i : ℕ} (h : lo ≤ i) : other lo i ≠ i := by unfold other canon; omega

theorem other_lo (lo i : ℕ) : lo ≤ other lo i := by unfold other canon; omega

theorem same_canon {lo i j : ℕ} (hi : lo ≤ i) (hj : lo ≤ j) (h : canon lo i = canon lo j) : i = j ∨ i = other lo j := by
  unfold other canon at *; omega

/-- the wire without a switch -/
abbrev Strt (lo hi i : ℕ) : Prop := (hi - lo + 1) % 2 = 1 ∧ i = hi

theorem canon_hi {lo hi i : ℕ} (h : lo ≤ i) (h' : i ≤ hi) (hs : ¬Strt lo hi i) : canon lo i + 1 ≤ hi := by
  unfold canon Strt at *; omega

theorem other_hi {lo hi i : ℕ} (h : lo ≤ i) (h' : i ≤ hi) (hs : ¬Strt lo hi i) : other lo i ≤ hi := by
  unfold other canon Strt at *; omega

theorem other_strt {lo hi i : ℕ} (h : lo ≤ i) (h' : i ≤ hi) (hs : ¬Strt lo hi i) : ¬Strt lo hi (other lo i) := by
  unfold other canon Strt at *; omega

/-- the wire between a side switch and the inner network: top or bottom -/
def wire (lo hi i : ℕ) (t : Bool) : ℕ := lo + (i - lo) / 2 + (if t then 0 else topHeight (hi - lo + 1))

theorem switchOutput_canon {lo hi i : ℕ} (t : Bool) (h : lo ≤ i) (h' : i ≤ hi) (hs : ¬Strt lo hi i) :
    switchOutput (hi - lo + 1) lo (canon lo i) t = some (wire lo hi i t) := by
  have h1 : (canon lo i - lo) % 2 = 0 ∧ canon lo i - lo + 1 < hi - lo + 1 := by
    unfold canon Strt at *; omega
  have h2 : (canon lo i - lo) / 2 = (i - lo) / 2 := by unfold canon; omega
  unfold switchOutput wire
  simp only [h1, and_self, if_true, h2]

theorem wire_inj {lo hi i j : ℕ} {t t' : Bool} (hi1 : lo ≤ i) (hi2 : i ≤ hi) (hj1 : lo ≤ j) (hj2 : j ≤ hi)
    (hs : Strt lo hi i → t = false) (hs' : Strt lo hi j → t' = false) (h : wire lo hi i t = wire lo hi j t') :
    t = t' ∧ canon lo i = canon lo j := by
  unfold wire topHeight canon Strt at *
  cases t <;> cases t' <;> simp at h hs hs' ⊢ <;> omega

/-! ## Decisions -/

/-- top or bottom for a position, given the settings of the switches -/
def dec (lo hi : ℕ) (f : ℕ → Option Bool) (i : ℕ) : Option Bool :=
  if (hi - lo + 1) % 2 = 1 ∧ i = hi then some false else (f (canon lo i)).map (decisionOf lo i)

theorem dec_strt {lo hi i : ℕ} {f : ℕ → Option Bool} (h : Strt lo hi i) : dec lo hi f i = some false := by
  unfold dec; rw [if_pos h]

theorem decision_setting (lo i : ℕ) (t : Bool) : decisionOf lo i (settingOf lo i t) = t := by
  unfold decisionOf settingOf
  rw [show decide (canon lo i = i) = decide (i = canon lo i) from decide_eq_decide.2 eq_comm]
  cases decide (i = canon lo i) <;> cases t <;> rfl

theorem setting_decision (lo i : ℕ) (t : Bool) : settingOf lo i (decisionOf lo i t) = t := by
  unfold decisionOf settingOf
  rw [show decide (canon lo i = i) = decide (i = canon lo i) from decide_eq_decide.2 eq_comm]
  cases decide (i = canon lo i) <;> cases t <;> rfl

theorem dec_of_setting {lo hi i : ℕ} {f : ℕ → Option Bool} {t : Bool} (hs : ¬Strt lo hi i)
    (h : f (canon lo i) = some (settingOf lo i t)) : dec lo hi f i = some t := by
  unfold dec; rw [if_neg hs, h, Option.map_some, decision_setting]

theorem setting_of_dec {lo hi i : ℕ} {f : ℕ → Option Bool} {t : Bool} (hs : ¬Strt lo hi i)
    (h : dec lo hi f i = some t) : f (canon lo i) = some (settingOf lo i t) := by
  unfold dec at h; rw [if_neg hs] at h
  obtain ⟨s, h1, h2⟩ := Option.map_eq_some_iff.1 h
  rw [h1, ← h2, setting_decision]

theorem setting_other {lo i : ℕ} (t : Bool) (h : lo ≤ i) : settingOf lo (other lo i) (!t) = settingOf lo i t := by
  have h1 : (other lo i = canon lo i) ↔ ¬ (i = canon lo i) := by unfold other canon; omega
  have h2 : decide (other lo i = canon lo i) = !decide (i = canon lo i) := by
    rw [← decide_not]; exact decide_eq_decide.2 h1
  unfold settingOf
  rw [other_canon h, h2]
  cases decide (i = canon lo i) <;> cases t <;> rfl

theorem dec_other {lo hi i : ℕ} {f : ℕ → Option Bool} {t : Bool} (h1 : lo ≤ i) (h2 : i ≤ hi) (hs : ¬Strt lo hi i)
    (h : dec lo hi f i = some t) : dec lo hi f (other lo i) = some (!t) := by
  apply dec_of_setting (other_strt h1 h2 hs)
  rw [other_canon h1, setting_of_dec hs h, setting_other t h1]

theorem dec_congr {lo hi i : ℕ} {f f' : ℕ → Option Bool} (h : f' (canon lo i) = f (canon lo i)) :
    dec lo hi f' i = dec lo hi f i := by
  unfold dec; rw [h]

/-! ## The core of the invariant -/

/-- `π` is a permutation of the interval and `inv` its inverse -/
structure PermOn (lo hi : ℕ) (π inv : ℕ → ℕ) : Prop where
  fwd : ∀ i, lo ≤ i → i ≤ hi → lo ≤ π i ∧ π i ≤ hi ∧ inv (π i) = i
  bwd : ∀ j, lo ≤ j → j ≤ hi → lo ≤ inv j ∧ inv j ≤ hi ∧ π (inv j) = j

theorem PermOn.inj {lo hi : ℕ} {π inv : ℕ → ℕ} (h : PermOn lo hi π inv) {i j : ℕ} (h1 : lo ≤ i) (h2 : i ≤ hi) (h3 : lo ≤ j)
    (h4 : j ≤ hi) (e : π i = π j) : i = j := by
  rw [← (h.fwd i h1 h2).2.2, e, (h.fwd j h3 h4).2.2]

/-- Everything routed so far is consistent -/
structure Core (lo hi : ℕ) (π inv : ℕ → ℕ) (f g : ℕ → Option Bool) (np npi : ℕ → ℕ) (A : ℕ → Bool) : Prop where
  routed : ∀ i, lo ≤ i → i ≤ hi → A i = true → ∃ t, dec lo hi f i = some t ∧ np (wire lo hi i t) = wire lo hi (π i) t ∧
    npi (wire lo hi (π i) t) = wire lo hi i t ∧
    (dec lo hi g (π i) = some t ∨ ((hi - lo + 1) % 2 = 0 ∧ π i = hi ∧ t = false ∧ g (hi - 1) = none))
  fdef : ∀ k b, lo ≤ k → k ≤ hi → f k = some b → (k - lo) % 2 = 0 ∧ k + 1 ≤ hi ∧
    (A k = true ∨ A (k + 1) = true ∨ ((hi - lo + 1) % 2 = 0 ∧ k + 1 = hi ∧ b = false))
  gdef : ∀ k b, lo ≤ k → k ≤ hi → g k = some b → (k - lo) % 2 = 0 ∧ k + 1 ≤ hi ∧ (A (inv k) = true ∨ A (inv (k + 1)) = true)

theorem upd_same {α : Type} (f : ℕ → α) (i : ℕ) (x : α) : upd f i x i = x := by simp [upd]

theorem upd_ne {α : Type} (f : ℕ → α) {i j : ℕ} (x : α) (h : j ≠ i) : upd f i x j = f j := by simp [upd, h]

/-- Routing one packet `x` through `t` -/
theorem Core.add {lo hi : ℕ} {π inv : ℕ → ℕ} {f g f' g' : ℕ → Option Bool} {np npi : ℕ → ℕ} {A : ℕ → Bool}
    (hp : PermOn lo hi π inv) (hc : Core lo hi π inv f g np npi A) {x : ℕ} {t : Bool} (h1 : lo ≤ x) (h2 : x ≤ hi)
    (hs : ¬Strt lo hi x)
    (hf1 : ∀ k, k ≠ canon lo x → f' k = f k) (hf2 : f' (canon lo x) = some (settingOf lo x t))
    (hf3 : f (canon lo x) = none ∨ f (canon lo x) = f' (canon lo x))
    (hg : (Strt lo hi (π x) ∧ t = false ∧ g' = g) ∨ ((hi - lo + 1) % 2 = 0 ∧ π x = hi ∧ t = false ∧ g' = g ∧ g (hi - 1) = none) ∨
      (¬Strt lo hi (π x) ∧ (∀ k, k ≠ canon lo (π x) → g' k = g k) ∧ g' (canon lo (π x)) = some (settingOf lo (π x) t) ∧
        (g (canon lo (π x)) = none ∨ g (canon lo (π x)) = g' (canon lo (π x))) ∧
        (∀ i, lo ≤ i → i ≤ hi → A i = true → π i = hi → (hi - lo + 1) % 2 = 0 → g (hi - 1) = none → π x = hi - 1 → t = true))) :
    Core lo hi π inv f' g' (upd np (wire lo hi x t) (wire lo hi (π x) t)) (upd npi (wire lo hi (π x) t) (wire lo hi x t))
      (upd A x true) := by
  obtain ⟨p1, p2, p3⟩ := hp.fwd x h1 h2
  have hdx : dec lo hi f' x = some t := dec_of_setting hs hf2
  have hgx : dec lo hi g' (π x) = some t ∨ ((hi - lo + 1) % 2 = 0 ∧ π x = hi ∧ t = false ∧ g' (hi - 1) = none) := by
    rcases hg with ⟨a, b, c⟩ | ⟨a, b, c, d, e⟩ | ⟨a, b, c, d, e⟩
    · left; rw [dec_strt a, b]
    · right; exact ⟨a, b, c, d ▸ e⟩
    · left; exact dec_of_setting a c
  refine ⟨?_, ?_, ?_⟩
  · intro i i1 i2 hA
    by_cases hix : i = x
    · subst hix
      exact ⟨t, hdx, upd_same _ _ _, upd_same _ _ _, hgx⟩
    · rw [upd_ne _ _ hix] at hA
      obtain ⟨ti, d1, d2, d3, d4⟩ := hc.routed i i1 i2 hA
      obtain ⟨q1, q2, q3⟩ := hp.fwd i i1 i2
      have hpi : π i ≠ π x := fun e => hix (hp.inj i1 i2 h1 h2 e)
      -- left decision unchanged
      have e1 : dec lo hi f' i = some ti := by
        by_cases hsi : Strt lo hi i
        · rw [dec_strt hsi] at d1 ⊢; exact d1
        · rw [← d1]
          apply dec_congr
          by_cases hcn : canon lo i = canon lo x
          · have := setting_of_dec hsi d1
            rw [hcn] at this ⊢
            rcases hf3 with h | h
            · rw [h] at this; cases this
            · exact h.symm
          · exact hf1 _ hcn
      -- right decision
      have e2 : dec lo hi g' (π i) = some ti ∨ ((hi - lo + 1) % 2 = 0 ∧ π i = hi ∧ ti = false ∧ g' (hi - 1) = none) := by
        rcases hg with ⟨_, _, c⟩ | ⟨_, _, _, c, _⟩ | ⟨a, b, c, d, e⟩
        · rw [c]; exact d4
        · rw [c]; exact d4
        · rcases d4 with d4 | ⟨k1, k2, k3, k4⟩
          · left
            by_cases hsi : Strt lo hi (π i)
            · rw [dec_strt hsi] at d4 ⊢; exact d4
            · rw [← d4]
              apply dec_congr
              by_cases hcn : canon lo (π i) = canon lo (π x)
              · have := setting_of_dec hsi d4
                rw [hcn] at this ⊢
                rcases d with h | h
                · rw [h] at this; cases this
                · exact h.symm
              · exact b _ hcn
          · by_cases hcn : canon lo (π x) = hi - 1
            · have hpx : π x = hi - 1 := by
                have := canon_cases p1; rw [hcn] at this; omega
              have ht := e i i1 i2 hA k2 k1 k4 hpx
              left
              have ho : other lo (π x) = π i := by
                rw [hpx, k2]; unfold other canon; omega
              have := dec_other p1 p2 a (dec_of_setting a c)
              rw [ho, ht] at this
              rw [this, k3]; rfl
            · right
              exact ⟨k1, k2, k3, by rw [b _ (Ne.symm hcn)]; exact k4⟩
      refine ⟨ti, e1, ?_, ?_, e2⟩
      · rw [upd_ne, d2]
        intro hw
        obtain ⟨w1, w2⟩ := wire_inj i1 i2 h1 h2 (fun h => by rw [dec_strt h] at d1; exact (Option.some.inj d1).symm)
          (fun h => absurd h hs) hw
        rcases same_canon i1 h1 w2 with h | h
        · exact hix h
        · have := dec_other h1 h2 hs hdx
          rw [← h, e1, w1] at this
          cases t <;> simp at this
      · rw [upd_ne, d3]
        intro hw
        have s1 : Strt lo hi (π i) → ti = false := fun h => by
          rcases e2 with e2 | e2
          · rw [dec_strt h] at e2; exact (Option.some.inj e2).symm
          · exact e2.2.2.1
        have s2 : Strt lo hi (π x) → t = false := fun h => by
          rcases hgx with e2 | e2
          · rw [dec_strt h] at e2; exact (Option.some.inj e2).symm
          · exact e2.2.2.1
        obtain ⟨w1, w2⟩ := wire_inj q1 q2 p1 p2 s1 s2 hw
        rcases same_canon q1 p1 w2 with h | h
        · exact hpi h
        · have hsx : ¬Strt lo hi (π x) := by
            intro hh; rw [h] at q2; unfold Strt other canon at *; omega
          rcases hg with ⟨a, _, _⟩ | ⟨a, b, c, d, e'⟩ | ⟨a, b, c, d, e'⟩
          · exact hsx a
          · -- `x` goes to `hi`, so `i` goes to `hi - 1`, whose switch is not set
            have : π i = hi - 1 := by rw [h, b]; unfold other canon; omega
            rcases e2 with e2 | e2
            · have := setting_of_dec (by unfold Strt; omega) e2
              rw [w2, b, show canon lo hi = hi - 1 by unfold canon; omega, d, e'] at this
              cases this
            · omega
          · have hh := dec_other p1 p2 a (dec_of_setting a c)
            rw [← h] at hh
            rcases e2 with e2 | ⟨k1, k2, k3, k4⟩
            · rw [e2, w1] at hh; cases t <;> simp at hh
            · rw [← w2, k2, show canon lo hi = hi - 1 by unfold canon; omega, k4] at c; cases c
  · intro k b k1 k2 hk
    by_cases hkx : k = canon lo x
    · refine ⟨by rw [hkx]; exact canon_parity lo x, by rw [hkx]; exact canon_hi h1 h2 hs, ?_⟩
      rcases canon_cases h1 with h | h
      · left; rw [hkx, ← h]; exact upd_same _ _ _
      · right; left; rw [hkx, ← h]; exact upd_same _ _ _
    · rw [hf1 k hkx] at hk
      obtain ⟨a, b', c⟩ := hc.fdef k b k1 k2 hk
      refine ⟨a, b', ?_⟩
      rcases c with c | c | c
      · left; by_cases h : k = x
        · rw [h]; exact upd_same _ _ _
        · rw [upd_ne _ _ h]; exact c
      · right; left; by_cases h : k + 1 = x
        · rw [h]; exact upd_same _ _ _
        · rw [upd_ne _ _ h]; exact c
      · right; right; exact c
  · have mono : ∀ y, A y = true → upd A x true y = true := fun y hy => by
      by_cases h : y = x
      · rw [h]; exact upd_same _ _ _
      · rw [upd_ne _ _ h]; exact hy
    intro k b k1 k2 hk
    have old : g k = some b → (k - lo) % 2 = 0 ∧ k + 1 ≤ hi ∧ (upd A x true (inv k) = true ∨ upd A x true (inv (k + 1)) = true) := by
      intro hk
      obtain ⟨a, b', c⟩ := hc.gdef k b k1 k2 hk
      exact ⟨a, b', c.imp (mono _) (mono _)⟩
    rcases hg with ⟨_, _, c⟩ | ⟨_, _, _, c, _⟩ | ⟨a, b', c, d, e⟩
    · rw [c] at hk; exact old hk
    · rw [c] at hk; exact old hk
    · by_cases hkx : k = canon lo (π x)
      · refine ⟨by rw [hkx]; exact canon_parity lo _, by rw [hkx]; exact canon_hi p1 p2 a, ?_⟩
        rcases canon_cases p1 with h | h
        · left; rw [hkx, ← h, p3]; exact upd_same _ _ _
        · right; rw [hkx, ← h, p3]; exact upd_same _ _ _
      · rw [b' k hkx] at hk; exact old hk

theorem dec_mono {lo hi : ℕ} {f f' : ℕ → Option Bool} {c i : ℕ} {t : Bool} (hf1 : ∀ k, k ≠ c → f' k = f k)
    (hf3 : f c = none ∨ f c = f' c) (h : dec lo hi f i = some t) : dec lo hi f' i = some t := by
  by_cases hs : Strt lo hi i
  · rw [dec_strt hs] at h ⊢; exact h
  · have := setting_of_dec hs h
    apply dec_of_setting hs
    by_cases hc : canon lo i = c
    · rw [hc] at this ⊢
      rcases hf3 with e | e
      · rw [e] at this; cases this
      · rw [← e, this]
    · rw [hf1 _ hc, this]

/-! ## Half-routed switches -/

/-- the left switches with exactly one routed packet are those of `E` -/
def LC (lo hi : ℕ) (A : ℕ → Bool) (E : ℕ → Prop) : Prop :=
  ∀ i, lo ≤ i → i ≤ hi → ¬Strt lo hi i → A i = true → A (other lo i) = false → E i

/-- the right switches with exactly one routed packet are those of `E` -/
def RC (lo hi : ℕ) (π inv : ℕ → ℕ) (A : ℕ → Bool) (E : ℕ → Prop) : Prop :=
  ∀ i, lo ≤ i → i ≤ hi → ¬Strt lo hi (π i) → A i = true → A (inv (other lo (π i))) = false → E i

theorem upd_true_iff {A : ℕ → Bool} {x i : ℕ} : upd A x true i = true ↔ i = x ∨ A i = true := by
  unfold upd; split <;> simp_all

theorem upd_true_false {A : ℕ → Bool} {x i : ℕ} : upd A x true i = false ↔ i ≠ x ∧ A i = false := by
  unfold upd; split <;> simp_all

theorem LC.add {lo hi : ℕ} {A : ℕ → Bool} {E : ℕ → Prop} (h : LC lo hi A E) (x : ℕ) :
    LC lo hi (upd A x true) fun i => (E i ∧ i ≠ x ∧ other lo i ≠ x) ∨ (i = x ∧ A (other lo x) = false) := by
  intro i h1 h2 h3 h4 h5
  rw [upd_true_false] at h5
  rw [upd_true_iff] at h4
  by_cases hx : i = x
  · right; subst hx; exact ⟨rfl, h5.2⟩
  · left; exact ⟨h i h1 h2 h3 (h4.resolve_left hx) h5.2, hx, h5.1⟩

theorem RC.add {lo hi : ℕ} {π inv : ℕ → ℕ} {A : ℕ → Bool} {E : ℕ → Prop} (h : RC lo hi π inv A E) (x : ℕ) :
    RC lo hi π inv (upd A x true) fun i => (E i ∧ i ≠ x ∧ inv (other lo (π i)) ≠ x) ∨ (i = x ∧ A (inv (other lo (π x))) = false) := by
  intro i h1 h2 h3 h4 h5
  rw [upd_true_false] at h5
  rw [upd_true_iff] at h4
  by_cases hx : i = x
  · right; subst hx; exact ⟨rfl, h5.2⟩
  · left; exact ⟨h i h1 h2 h3 (h4.resolve_left hx) h5.2, hx, h5.1⟩

theorem LC.mono {lo hi : ℕ} {A : ℕ → Bool} {E E' : ℕ → Prop} (h : LC lo hi A E) (hE : ∀ i, lo ≤ i → i ≤ hi → E i → E' i) :
    LC lo hi A E' := fun i h1 h2 h3 h4 h5 => hE i h1 h2 (h i h1 h2 h3 h4 h5)

theorem RC.mono {lo hi : ℕ} {π inv : ℕ → ℕ} {A : ℕ → Bool} {E E' : ℕ → Prop} (h : RC lo hi π inv A E)
    (hE : ∀ i, lo ≤ i → i ≤ hi → ¬Strt lo hi (π i) → E i → E' i) :
    RC lo hi π inv A E' := fun i h1 h2 h3 h4 h5 => hE i h1 h2 h3 (h i h1 h2 h3 h4 h5)

/-! ## The invariant -/

/-- What holds at every point of the loop -/
structure Base (left right lo hi : ℕ) (π inv : ℕ → ℕ) (rt0 : Routing) (s : RSt) : Prop where
  core : Core lo hi π inv (s.rt left) (s.rt right) s.np s.npi s.routed
  mlo : lo ≤ s.maxUn
  mhi : s.maxUn ≤ hi
  above : ∀ i, s.maxUn < i → i ≤ hi → s.routed i = true
  odd : (hi - lo + 1) % 2 = 1 → s.routed hi = true
  pre : (hi - lo + 1) % 2 = 0 → dec lo hi (s.rt left) hi = some false
  frame : ∀ c r, ¬((c = left ∨ c = right) ∧ lo ≤ r ∧ r ≤ hi) → s.rt c r = rt0 c r

/-- About to route packet `x` forward: first packet of a chain, inside a chain going down (`N`), in the second half of a chain that
was cut at the last output (`X`), or in the chain of the wire without switch (`P`) -/
inductive LMode (lo hi : ℕ) (π inv : ℕ → ℕ) (f g : ℕ → Option Bool) (A : ℕ → Bool) (m x : ℕ) : Prop
  | S (hx : x = m) (par : (m - lo) % 2 = 1) (h : A (other lo x) = false) (lc : LC lo hi A fun _ => False)
      (rc : RC lo hi π inv A fun _ => False) (ho : (hi - lo + 1) % 2 = 1 → A (inv hi) = true)
  | N (hx : A (other lo x) = true) (hd : dec lo hi f (other lo x) = some true) (hm : A m = true) (hmd : dec lo hi f m = some false)
      (par : (m - lo) % 2 = 1) (hm' : A (other lo m) = false) (lc : LC lo hi A fun i => i = other lo x ∨ i = m)
      (rc : RC lo hi π inv A fun _ => False) (ho : (hi - lo + 1) % 2 = 1 → A (inv hi) = true)
  | X (ev : (hi - lo + 1) % 2 = 0) (hh : A hi = true) (hx : A (other lo x) = true) (hd : dec lo hi f (other lo x) = some false) (w : ℕ) (w1 : lo ≤ w)
      (w2 : w ≤ hi) (hw : A w = true) (hwp : π w = hi) (hwd : dec lo hi f w = some false) (hg : g (hi - 1) = none)
      (lc : LC lo hi A fun i => i = other lo x) (rc : RC lo hi π inv A fun i => i = w)
  | P (od : (hi - lo + 1) % 2 = 1) (hn : A (inv hi) = false) (hx : A (other lo x) = true)
      (hd : dec lo hi f (other lo x) = some true) (lc : LC lo hi A fun i => i = other lo x) (rc : RC lo hi π inv A fun _ => False)

/-- About to route back from output `j` -/
inductive RMode (lo hi : ℕ) (π inv : ℕ → ℕ) (f g : ℕ → Option Bool) (A : ℕ → Bool) (m j : ℕ) : Prop
  | N (hz : A (inv j) = false) (hd : dec lo hi f (inv (other lo j)) = some false) (hm : A m = true) (hmd : dec lo hi f m = some false)
      (par : (m - lo) % 2 = 1) (hm' : A (other lo m) = false) (lc : LC lo hi A fun i => i = m)
      (rc : RC lo hi π inv A fun i => i = inv (other lo j)) (ho : (hi - lo + 1) % 2 = 1 → A (inv hi) = true)
  | X (ev : (hi - lo + 1) % 2 = 0) (hh : A hi = true) (hd : dec lo hi f (inv (other lo j)) = some true) (w : ℕ) (w1 : lo ≤ w)
      (w2 : w ≤ hi) (hw : A w = true) (hwp : π w = hi) (hwd : dec lo hi f w = some false)
      (hg : g (hi - 1) = none ∨ j = hi) (hz : A (inv j) = false ∨ j = hi)
      (lc : LC lo hi A fun _ => False) (rc : RC lo hi π inv A fun i => i = inv (other lo j) ∨ i = w)
  | P (od : (hi - lo + 1) % 2 = 1) (hn : A (inv hi) = false) (hz : A (inv j) = false)
      (hd : dec lo hi f (inv (other lo j)) = some false)
      (lc : LC lo hi A fun _ => False) (rc : RC lo hi π inv A fun i => i = inv (other lo j))

/-- Looking for the next packet -/
inductive QMode (lo hi : ℕ) (π inv : ℕ → ℕ) (f g : ℕ → Option Bool) (A : ℕ → Bool) (m : ℕ) : Prop
  | C (lc : LC lo hi A fun _ => False) (rc : RC lo hi π inv A fun _ => False) (ho : (hi - lo + 1) % 2 = 1 → A (inv hi) = true)
  | X (ev : (hi - lo + 1) % 2 = 0) (hm : A m = true) (hmd : dec lo hi f m = some false) (par : (m - lo) % 2 = 1)
      (hm' : A (other lo m) = false) (w : ℕ) (w1 : lo ≤ w)
      (w2 : w ≤ hi) (hw : A w = true) (hwp : π w = hi) (hwd : dec lo hi f w = some false) (hg : g (hi - 1) = none)
      (lc : LC lo hi A fun i => i = m) (rc : RC lo hi π inv A fun i => i = w)

structure LInv (left right lo hi : ℕ) (π inv : ℕ → ℕ) (rt0 : Routing) (s : RSt) : Prop where
  base : Base left right lo hi π inv rt0 s
  go : s.goLeft = true
  xlo : lo ≤ s.toRoute
  xhi : s.toRoute ≤ hi
  new : s.routed s.toRoute = false
  mode : LMode lo hi π inv (s.rt left) (s.rt right) s.routed s.maxUn s.toRoute

structure RInv (left right lo hi : ℕ) (π inv : ℕ → ℕ) (rt0 : Routing) (s : RSt) : Prop where
  base : Base left right lo hi π inv rt0 s
  go : s.goLeft = false
  jlo : lo ≤ s.toRoute
  jhi : s.toRoute ≤ hi
  js : ¬Strt lo hi s.toRoute
  jo : other lo s.toRoute ≠ hi
  old : s.routed (inv (other lo s.toRoute)) = true
  mode : RMode lo hi π inv (s.rt left) (s.rt right) s.routed s.maxUn s.toRoute

structure QInv (left right lo hi : ℕ) (π inv : ℕ → ℕ) (rt0 : Routing) (s : RSt) : Prop where
  base : Base left right lo hi π inv rt0 s
  go : s.goLeft = true
  mode : QMode lo hi π inv (s.rt left) (s.rt right) s.routed s.maxUn

/-- number of packets still to route -/
def unrouted (lo hi : ℕ) (A : ℕ → Bool) : ℕ := ((Finset.Icc lo hi).filter fun i => A i = false).card

theorem unrouted_add {lo hi x : ℕ} {A : ℕ → Bool} (h1 : lo ≤ x) (h2 : x ≤ hi) (h : A x = false) :
    unrouted lo hi (upd A x true) + 1 ≤ unrouted lo hi A := by
  unfold unrouted
  apply Finset.card_lt_card
  rw [Finset.ssubset_iff_of_subset]
  · exact ⟨x, by simp [h1, h2, h], by simp [upd]⟩
  · intro i hi'
    simp only [Finset.mem_filter, upd_true_false] at hi' ⊢
    exact ⟨hi'.1, hi'.2.2⟩

theorem unrouted_le {lo hi x : ℕ} {A : ℕ → Bool} : unrouted lo hi (upd A x true) ≤ unrouted lo hi A := by
  unfold unrouted
  apply Finset.card_le_card
  intro i hi'
  simp only [Finset.mem_filter, upd_true_false] at hi' ⊢
  exact ⟨hi'.1, hi'.2.2⟩

theorem upd2_same {α : Type} (f : ℕ → ℕ → α) (c i : ℕ) (x : α) : upd2 f c i x c = upd (f c) i x := by simp [upd2]

theorem upd2_col {α : Type} (f : ℕ → ℕ → α) {c c' : ℕ} (i : ℕ) (x : α) (h : c' ≠ c) : upd2 f c i x c' = f c' := by simp [upd2, h]

theorem wire_hi {lo hi : ℕ} (h : lo ≤ hi) : wire lo hi hi false = hi := by
  unfold wire topHeight; simp; omega

/-- computing the forward step -/
theorem routeOne_fwd {left right lo hi : ℕ} {π inv : ℕ → ℕ} {s : RSt} {t : Bool} (hlr : left ≠ right) (go : s.goLeft = true)
    (xlo : lo ≤ s.toRoute) (xhi : s.toRoute ≤ hi) (hs : ¬Strt lo hi s.toRoute)
    (plan : (s.rt left (canon lo s.toRoute) = none ∧ settingOf lo s.toRoute t = false) ∨
      s.rt left (canon lo s.toRoute) = some (settingOf lo s.toRoute t)) :
    ∃ f', (∀ k, k ≠ canon lo s.toRoute → f' k = s.rt left k) ∧ f' (canon lo s.toRoute) = some (settingOf lo s.toRoute t) ∧
      ∃ rt', rt' left = f' ∧ (∀ c, c ≠ left → rt' c = s.rt c) ∧
      (π s.toRoute = hi → routeOne left right lo hi π inv s = some { s with
        rt := rt', np := upd s.np (wire lo hi s.toRoute t) hi, npi := upd s.npi hi (wire lo hi s.toRoute t),
        routed := upd s.routed s.toRoute true, toRoute := s.maxUn, goLeft := true }) ∧
      (π s.toRoute ≠ hi → lo ≤ π s.toRoute → π s.toRoute ≤ hi → s.rt right (canon lo (π s.toRoute)) = none →
        routeOne left right lo hi π inv s = some { s with
          rt := upd2 rt' right (canon lo (π s.toRoute)) (some (settingOf lo (π s.toRoute) t)),
          np := upd s.np (wire lo hi s.toRoute t) (wire lo hi (π s.toRoute) t),
          npi := upd s.npi (wire lo hi (π s.toRoute) t) (wire lo hi s.toRoute t),
          routed := upd s.routed s.toRoute true, toRoute := other lo (π s.toRoute), goLeft := false }) := by
  have key : ∃ rt', assign s.rt left (canon lo s.toRoute) = rt' ∧
      rt' left (canon lo s.toRoute) = some (settingOf lo s.toRoute t) ∧
      (∀ k, k ≠ canon lo s.toRoute → rt' left k = s.rt left k) ∧ (∀ c, c ≠ left → rt' c = s.rt c) := by
    rcases plan with ⟨h1, h2⟩ | h
    · refine ⟨upd2 s.rt left (canon lo s.toRoute) (some false), by unfold assign; rw [h1], ?_, ?_, ?_⟩
      · rw [upd2_same, upd_same, h2]
      · intro k hk; rw [upd2_same, upd_ne _ _ hk]
      · intro c hc; exact upd2_col _ _ _ hc
    · exact ⟨s.rt, by unfold assign; rw [h], h, fun _ _ => rfl, fun _ _ => rfl⟩
  obtain ⟨rt', e, k1, k2, k3⟩ := key
  refine ⟨rt' left, k2, k1, rt', rfl, k3, ?_, ?_⟩
  · intro hp
    unfold routeOne
    simp only [go, if_true]
    rw [e, k1]
    simp only [decision_setting]
    rw [switchOutput_canon t xlo xhi hs]
    simp only [Option.bind_some, hp, if_true]
  · intro hp p1 p2 hg
    have hps : ¬Strt lo hi (π s.toRoute) := fun h => hp h.2
    unfold routeOne
    simp only [go, if_true]
    rw [e, k1]
    simp only [decision_setting]
    rw [switchOutput_canon t xlo xhi hs]
    simp only [Option.bind_some, hp, if_false]
    rw [k3 right (Ne.symm hlr), hg, switchOutput_canon t p1 p2 hps]
    simp

/-- computing the backward step -/
theorem routeOne_bwd {left right lo hi : ℕ} {π inv : ℕ → ℕ} {s : RSt} {t : Bool} (go : s.goLeft = false)
    (jlo : lo ≤ s.toRoute) (jhi : s.toRoute ≤ hi) (js : ¬Strt lo hi s.toRoute)
    (zlo : lo ≤ inv s.toRoute) (zhi : inv s.toRoute ≤ hi) (zs : ¬Strt lo hi (inv s.toRoute))
    (hd : dec lo hi (s.rt right) s.toRoute = some t) :
    routeOne left right lo hi π inv s = some { s with
      rt := upd2 s.rt left (canon lo (inv s.toRoute)) (some (settingOf lo (inv s.toRoute) t)),
      np := upd s.np (wire lo hi (inv s.toRoute) t) (wire lo hi s.toRoute t),
      npi := upd s.npi (wire lo hi s.toRoute t) (wire lo hi (inv s.toRoute) t),
      routed := upd s.routed (inv s.toRoute) true, toRoute := other lo (inv s.toRoute), goLeft := true } := by
  have h := setting_of_dec js hd
  unfold routeOne
  simp only [go, if_false, Bool.false_eq_true]
  rw [h]
  simp only [decision_setting]
  rw [switchOutput_canon t jlo jhi js]
  simp only [Option.bind_some]
  rw [switchOutput_canon t zlo zhi zs]
  simp

/-! ## Forward step -/

/-- what a step leaves behind -/
structure Step (left right lo hi : ℕ) (π inv : ℕ → ℕ) (rt0 : Routing) (s s' : RSt) (x : ℕ) (t : Bool) : Prop where
  base : Base left right lo hi π inv rt0 s'
  max : s'.maxUn = s.maxUn
  routed : s'.routed = upd s.routed x true
  mono : ∀ i u, dec lo hi (s.rt left) i = some u → dec lo hi (s'.rt left) i = some u
  new : dec lo hi (s'.rt left) x = some t

theorem base_above {A : ℕ → Bool} {m hi x : ℕ} (h : ∀ i, m < i → i ≤ hi → A i = true) (i : ℕ) (h1 : m < i) (h2 : i ≤ hi) :
    upd A x true i = true := upd_true_iff.2 (Or.inr (h i h1 h2))

theorem fwd_hi {left right lo hi : ℕ} {π inv : ℕ → ℕ} {rt0 : Routing} {s : RSt} {t : Bool} (hp : PermOn lo hi π inv)
    (hlr : left ≠ right) (hb : Base left right lo hi π inv rt0 s) (go : s.goLeft = true)
    (xlo : lo ≤ s.toRoute) (xhi : s.toRoute ≤ hi) (hs : ¬Strt lo hi s.toRoute)
    (plan : (s.rt left (canon lo s.toRoute) = none ∧ settingOf lo s.toRoute t = false) ∨
      s.rt left (canon lo s.toRoute) = some (settingOf lo s.toRoute t))
    (hpx : π s.toRoute = hi) (ht : t = false) (hgn : (hi - lo + 1) % 2 = 0 → s.rt right (hi - 1) = none) :
    ∃ s', routeOne left right lo hi π inv s = some s' ∧ Step left right lo hi π inv rt0 s s' s.toRoute t ∧
      s'.goLeft = true ∧ s'.toRoute = s'.maxUn ∧ s'.rt right = s.rt right := by
  obtain ⟨f', f1, f2, rt', r1, r2, r3, _⟩ := routeOne_fwd (π := π) (inv := inv) hlr go xlo xhi hs plan
  have f3 : s.rt left (canon lo s.toRoute) = none ∨ s.rt left (canon lo s.toRoute) = f' (canon lo s.toRoute) := by
    rcases plan with h | h
    · exact Or.inl h.1
    · right; rw [h, f2]
  refine ⟨_, r3 hpx, ⟨⟨?_, hb.mlo, hb.mhi, base_above hb.above, fun h => upd_true_iff.2 (Or.inr (hb.odd h)), (fun h => by simp only [r1]; exact dec_mono f1 f3 (hb.pre h)), ?_⟩, rfl, rfl, ?_, ?_⟩, rfl, rfl, r2 right (Ne.symm hlr)⟩
  · have := Core.add (f' := f') (g' := s.rt right) hp hb.core (t := t) xlo xhi hs f1 f2 f3 (by
      by_cases ho : (hi - lo + 1) % 2 = 1
      · left; exact ⟨⟨ho, hpx⟩, ht, rfl⟩
      · right; left; exact ⟨by omega, hpx, ht, rfl, hgn (by omega)⟩)
    rw [hpx, ht, wire_hi (by omega)] at this
    simp only [r1, r2 right (Ne.symm hlr), ht]
    exact this
  · intro c r hcr
    by_cases hc : c = left
    · subst hc
      have : r ≠ canon lo s.toRoute := by
        intro h; apply hcr; refine ⟨Or.inl rfl, ?_, ?_⟩
        · rw [h]; exact canon_lo _ _
        · have := canon_hi xlo xhi hs; omega
      simp only [r1, f1 r this]
      exact hb.frame _ _ hcr
    · simp only [r2 c hc]
      exact hb.frame _ _ hcr
  · intro i u h
    simp only [r1]
    exact dec_mono f1 f3 h
  · simp only [r1]
    exact dec_of_setting hs f2

theorem fwd_sw {left right lo hi : ℕ} {π inv : ℕ → ℕ} {rt0 : Routing} {s : RSt} {t : Bool} (hp : PermOn lo hi π inv)
    (hlr : left ≠ right) (hb : Base left right lo hi π inv rt0 s) (go : s.goLeft = true)
    (xlo : lo ≤ s.toRoute) (xhi : s.toRoute ≤ hi) (hs : ¬Strt lo hi s.toRoute)
    (plan : (s.rt left (canon lo s.toRoute) = none ∧ settingOf lo s.toRoute t = false) ∨
      s.rt left (canon lo s.toRoute) = some (settingOf lo s.toRoute t))
    (hpx : π s.toRoute ≠ hi) (hg : s.rt right (canon lo (π s.toRoute)) = none)
    (hexc : ∀ i, lo ≤ i → i ≤ hi → s.routed i = true → π i = hi → (hi - lo + 1) % 2 = 0 → s.rt right (hi - 1) = none →
      π s.toRoute = hi - 1 → t = true) :
    ∃ s', routeOne left right lo hi π inv s = some s' ∧ Step left right lo hi π inv rt0 s s' s.toRoute t ∧
      s'.goLeft = false ∧ s'.toRoute = other lo (π s.toRoute) ∧ (∀ k, k ≠ canon lo (π s.toRoute) → s'.rt right k = s.rt right k) := by
  obtain ⟨f', f1, f2, rt', r1, r2, _, r3⟩ := routeOne_fwd (π := π) (inv := inv) hlr go xlo xhi hs plan
  have f3 : s.rt left (canon lo s.toRoute) = none ∨ s.rt left (canon lo s.toRoute) = f' (canon lo s.toRoute) := by
    rcases plan with h | h
    · exact Or.inl h.1
    · right; rw [h, f2]
  obtain ⟨p1, p2, _⟩ := hp.fwd _ xlo xhi
  have hps : ¬Strt lo hi (π s.toRoute) := fun h => hpx h.2
  have g1 : ∀ k, k ≠ canon lo (π s.toRoute) →
      (upd2 rt' right (canon lo (π s.toRoute)) (some (settingOf lo (π s.toRoute) t))) right k = s.rt right k := by
    intro k hk; rw [upd2_same, upd_ne _ _ hk, r2 right (Ne.symm hlr)]
  have l1 : (upd2 rt' right (canon lo (π s.toRoute)) (some (settingOf lo (π s.toRoute) t))) left = f' := by
    rw [upd2_col _ _ _ hlr, r1]
  refine ⟨_, r3 hpx p1 p2 hg, ⟨⟨?_, hb.mlo, hb.mhi, base_above hb.above, fun h => upd_true_iff.2 (Or.inr (hb.odd h)), (fun h => by simp only [l1]; exact dec_mono f1 f3 (hb.pre h)), ?_⟩, rfl, rfl, ?_, ?_⟩, rfl, rfl, g1⟩
  · have := Core.add (f' := f') (g' := (upd2 rt' right (canon lo (π s.toRoute)) (some (settingOf lo (π s.toRoute) t))) right) hp hb.core
      (t := t) xlo xhi hs f1 f2 f3 (by
      right; right
      exact ⟨hps, g1, by rw [upd2_same, upd_same], Or.inl hg, hexc⟩)
    simp only [l1]
    exact this
  · intro c r hcr
    by_cases hc : c = left
    · subst hc
      have : r ≠ canon lo s.toRoute := by
        intro h; apply hcr; refine ⟨Or.inl rfl, ?_, ?_⟩
        · rw [h]; exact canon_lo _ _
        · have := canon_hi xlo xhi hs; omega
      simp only [l1, f1 r this]
      exact hb.frame _ _ hcr
    · by_cases hc' : c = right
      · subst hc'
        have : r ≠ canon lo (π s.toRoute) := by
          intro h; apply hcr; refine ⟨Or.inr rfl, ?_, ?_⟩
          · rw [h]; exact canon_lo _ _
          · have := canon_hi p1 p2 hps; omega
        simp only [g1 r this]
        exact hb.frame _ _ hcr
      · simp only [upd2_col _ _ _ hc', r2 c hc]
        exact hb.frame _ _ hcr
  · intro i u h
    simp only [l1]
    exact dec_mono f1 f3 h
  · simp only [l1]
    exact dec_of_setting hs f2

/-- the right switch of a new packet is not set -/
theorem gnone {lo hi : ℕ} {π inv : ℕ → ℕ} {f g : ℕ → Option Bool} {np npi : ℕ → ℕ} {A : ℕ → Bool} (hp : PermOn lo hi π inv)
    (hc : Core lo hi π inv f g np npi A) {x : ℕ} (h1 : lo ≤ x) (h2 : x ≤ hi) (hx : A x = false) (hs : ¬Strt lo hi (π x))
    (rc : RC lo hi π inv A fun i => π i = hi ∧ g (hi - 1) = none ∧ (hi - lo + 1) % 2 = 0) : g (canon lo (π x)) = none := by
  obtain ⟨p1, p2, p3⟩ := hp.fwd x h1 h2
  rcases hgk : g (canon lo (π x)) with _ | b
  · rfl
  · have hcl := canon_hi p1 p2 hs
    obtain ⟨_, _, c⟩ := hc.gdef _ b (canon_lo _ _) (by omega) hgk
    have ho := other_hi p1 p2 hs
    have hA : A (inv (other lo (π x))) = true := by
      rcases canon_cases p1 with h | h
      · rcases c with c | c
        · rw [← h, p3, hx] at c; cases c
        · rwa [show other lo (π x) = canon lo (π x) + 1 by unfold other; omega]
      · rcases c with c | c
        · rwa [show other lo (π x) = canon lo (π x) by unfold other; omega]
        · rw [← h, p3, hx] at c; cases c
    obtain ⟨b1, b2, b3⟩ := hp.bwd _ (other_lo lo (π x)) ho
    obtain ⟨e1, e2, e3⟩ := rc (inv (other lo (π x))) b1 b2 (by rw [b3]; exact other_strt p1 p2 hs) hA
      (by rw [b3, other_other p1, p3, hx])
    rw [b3] at e1
    have hcc := other_canon p1
    rw [e1, show canon lo hi = hi - 1 by unfold canon; omega] at hcc
    rw [← hcc, e2] at hgk; cases hgk

theorem dec_other' {lo hi i : ℕ} {f : ℕ → Option Bool} {t : Bool} (h1 : lo ≤ i) (h2 : i ≤ hi) (hs : ¬Strt lo hi i)
    (h : dec lo hi f (other lo i) = some t) : dec lo hi f i = some (!t) := by
  have := dec_other (other_lo lo i) (other_hi h1 h2 hs) (other_strt h1 h2 hs) h
  rwa [other_other h1] at this

theorem LMode.plan {left right lo hi : ℕ} {π inv : ℕ → ℕ} {rt0 : Routing} {s : RSt} (hb : Base left right lo hi π inv rt0 s)
    (xlo : lo ≤ s.toRoute) (xhi : s.toRoute ≤ hi) (hs : ¬Strt lo hi s.toRoute) (hx : s.routed s.toRoute = false)
    (h : LMode lo hi π inv (s.rt left) (s.rt right) s.routed s.maxUn s.toRoute) :
    ∃ t, ((s.rt left (canon lo s.toRoute) = none ∧ settingOf lo s.toRoute t = false) ∨
      s.rt left (canon lo s.toRoute) = some (settingOf lo s.toRoute t)) ∧
      (dec lo hi (s.rt left) (other lo s.toRoute) = some (!t) ∨ ((s.toRoute - lo) % 2 = 1 ∧ s.routed (other lo s.toRoute) = false ∧ t = false)) := by
  have gen : ∀ u, dec lo hi (s.rt left) (other lo s.toRoute) = some u →
      s.rt left (canon lo s.toRoute) = some (settingOf lo s.toRoute (!u)) := fun u hu =>
    setting_of_dec hs (dec_other' xlo xhi hs hu)
  cases h with
  | S hxm par h lc rc ho =>
    refine ⟨false, ?_, Or.inr ⟨by rw [hxm]; exact par, h, rfl⟩⟩
    have hne : settingOf lo s.toRoute false = false := by
      unfold settingOf canon; simp; omega
    rcases hfk : s.rt left (canon lo s.toRoute) with _ | b
    · left; exact ⟨rfl, hne⟩
    · right
      rw [hne]
      have hcl := canon_hi xlo xhi hs
      obtain ⟨_, _, c⟩ := hb.core.fdef _ b (canon_lo _ _) (by omega) hfk
      have hodd : s.toRoute = canon lo s.toRoute + 1 := by rw [← hxm] at par; unfold canon; omega
      have hoth : other lo s.toRoute = canon lo s.toRoute := by unfold other; omega
      rcases c with c | c | c
      · rw [← hoth, h] at c; cases c
      · rw [← hodd, hx] at c; cases c
      · rw [c.2.2]
  | N hx' hd _ _ _ _ _ _ _ => exact ⟨false, Or.inr (gen true hd), Or.inl hd⟩
  | X _ _ _ hd _ _ _ _ _ _ _ _ _ => exact ⟨true, Or.inr (gen false hd), Or.inl hd⟩
  | P _ _ _ hd _ _ => exact ⟨false, Or.inr (gen true hd), Or.inl hd⟩

theorem fwd_step {left right lo hi : ℕ} {π inv : ℕ → ℕ} {rt0 : Routing} {s : RSt} (hp : PermOn lo hi π inv)
    (hlr : left ≠ right) (hL : LInv left right lo hi π inv rt0 s) :
    ∃ s', routeOne left right lo hi π inv s = some s' ∧ unrouted lo hi s'.routed + 1 ≤ unrouted lo hi s.routed ∧
      (RInv left right lo hi π inv rt0 s' ∨ (s'.toRoute = s'.maxUn ∧ QInv left right lo hi π inv rt0 s')) := by
  obtain ⟨hb, go, xlo, xhi, hx, mode⟩ := hL
  have hs : ¬Strt lo hi s.toRoute := by
    intro h; have := hb.odd h.1; rw [← h.2, hx] at this; cases this
  obtain ⟨p1, p2, p3⟩ := hp.fwd _ xlo xhi
  obtain ⟨t, plan, ht⟩ := mode.plan hb xlo xhi hs hx
  have hoo : ∀ i, lo ≤ i → i = other lo s.toRoute → other lo i = s.toRoute := fun i _ h => by rw [h, other_other xlo]
  -- value of `t`
  have tval : ∀ u, dec lo hi (s.rt left) (other lo s.toRoute) = some u → s.routed (other lo s.toRoute) = true → t = !u := by
    intro u hu hA
    rcases ht with h | h
    · rw [hu] at h; have := Option.some.inj h; rw [this]; simp
    · rw [h.2.1] at hA; cases hA
  by_cases hpx : π s.toRoute = hi
  · have hinv : inv hi = s.toRoute := by rw [← hpx, p3]
    have hgn : (hi - lo + 1) % 2 = 0 → RC lo hi π inv s.routed (fun i => π i = hi ∧ s.rt right (hi - 1) = none ∧ (hi - lo + 1) % 2 = 0) →
        s.rt right (hi - 1) = none := by
      intro he rc
      have := gnone hp hb.core xlo xhi hx (by unfold Strt; omega) rc
      rwa [hpx, show canon lo hi = hi - 1 by unfold canon; omega] at this
    cases mode with
    | S hxm par h lc rc ho =>
      have ht : t = false := by
        rcases ht with h' | h'
        · have hcl := canon_hi xlo xhi hs
          -- the decision of an unrouted switch: only the preset one
          have hf := setting_of_dec (other_strt xlo xhi hs) h'
          rw [other_canon xlo] at hf
          obtain ⟨_, _, c⟩ := hb.core.fdef _ _ (canon_lo _ _) (by omega) hf
          have hodd : s.toRoute = canon lo s.toRoute + 1 := by rw [← hxm] at par; unfold canon; omega
          have hoth : other lo s.toRoute = canon lo s.toRoute := by unfold other; omega
          rcases c with c | c | c
          · rw [← hoth, h] at c; cases c
          · rw [← hodd, hx] at c; cases c
          · have := c.2.2
            rw [setting_other t xlo] at this
            unfold settingOf at this
            rw [show decide (s.toRoute = canon lo s.toRoute) = false by simp; omega] at this
            cases t
            · rfl
            · cases this
        · exact h'.2.2
      subst ht
      have he : (hi - lo + 1) % 2 = 0 := by
        by_contra hne
        have := ho (by omega)
        rw [hinv, hx] at this; cases this
      have hgn' := hgn he (rc.mono fun _ _ _ _ h => h.elim)
      obtain ⟨s', r1, st, r2, r3, r4⟩ := fwd_hi (inv := inv) hp hlr hb go xlo xhi hs plan hpx rfl fun _ => hgn'
      refine ⟨s', r1, by rw [st.routed]; exact unrouted_add xlo xhi hx, Or.inr ⟨r3, st.base, r2, ?_⟩⟩
      rw [st.routed, st.max, ← hxm, r4]
      exact QMode.X he (upd_same _ _ _) st.new (by rw [hxm]; exact par) (upd_true_false.2 ⟨other_ne xlo, h⟩) s.toRoute xlo xhi
        (upd_same _ _ _) hpx st.new hgn' ((lc.add _).mono fun i _ _ h => h.elim (fun h => h.1.elim) fun h => h.1)
        ((rc.add _).mono fun i _ _ _ h => h.elim (fun h => h.1.elim) fun h => h.1)
    | N hxo hd hm hmd par hm' lc rc ho =>
      have ht : t = false := tval true hd hxo
      subst ht
      have he : (hi - lo + 1) % 2 = 0 := by
        by_contra hne
        have := ho (by omega)
        rw [hinv, hx] at this; cases this
      have hgn' := hgn he (rc.mono fun _ _ _ _ h => h.elim)
      obtain ⟨s', r1, st, r2, r3, r4⟩ := fwd_hi (inv := inv) hp hlr hb go xlo xhi hs plan hpx rfl fun _ => hgn'
      refine ⟨s', r1, by rw [st.routed]; exact unrouted_add xlo xhi hx, Or.inr ⟨r3, st.base, r2, ?_⟩⟩
      rw [st.routed, st.max, r4]
      refine QMode.X he (upd_true_iff.2 (Or.inr hm)) (st.mono _ _ hmd) par (upd_true_false.2 ⟨?_, hm'⟩) s.toRoute xlo xhi
        (upd_same _ _ _) hpx st.new hgn' ((lc.add _).mono fun i i1 _ h => ?_)
        ((rc.add _).mono fun i _ _ _ h => h.elim (fun h => h.1.elim) fun h => h.1)
      · intro h
        rw [← h, other_other hb.mlo, hmd] at hd; cases hd
      · rcases h with ⟨h | h, _, h'⟩ | ⟨_, h⟩
        · exact absurd (hoo i i1 h) h'
        · exact h
        · rw [hxo] at h; cases h
    | X ev hh hxo hd w w1 w2 hw hwp hwd hg lc rc =>
      have : w = s.toRoute := hp.inj w1 w2 xlo xhi (by rw [hwp, hpx])
      rw [this, hx] at hw; cases hw
    | P od hn hxo hd lc rc =>
      have ht : t = false := tval true hd hxo
      subst ht
      obtain ⟨s', r1, st, r2, r3, r4⟩ := fwd_hi (inv := inv) hp hlr hb go xlo xhi hs plan hpx rfl fun h => by omega
      refine ⟨s', r1, by rw [st.routed]; exact unrouted_add xlo xhi hx, Or.inr ⟨r3, st.base, r2, ?_⟩⟩
      rw [st.routed, st.max, r4]
      refine QMode.C ((lc.add _).mono fun i i1 _ h => ?_) ((rc.add _).mono fun i _ _ hsi h => ?_) fun _ => ?_
      · rcases h with ⟨h, _, h'⟩ | ⟨_, h⟩
        · exact h' (hoo i i1 h)
        · rw [hxo] at h; cases h
      · rcases h with ⟨h, _⟩ | ⟨h, _⟩
        · exact h
        · rw [h] at hsi; exact hsi ⟨od, hpx⟩
      · rw [hinv]; exact upd_same _ _ _
  · have hps : ¬Strt lo hi (π s.toRoute) := fun h => hpx h.2
    have hjs := other_strt p1 p2 hps
    have hjh := other_hi p1 p2 hps
    have hjo : other lo (other lo (π s.toRoute)) = π s.toRoute := other_other p1
    -- the common part
    have go' : ∀ (hgn : s.rt right (canon lo (π s.toRoute)) = none)
        (hexc : ∀ i, lo ≤ i → i ≤ hi → s.routed i = true → π i = hi → (hi - lo + 1) % 2 = 0 → s.rt right (hi - 1) = none →
          π s.toRoute = hi - 1 → t = true)
        (hm : ∀ s', Step left right lo hi π inv rt0 s s' s.toRoute t →
          (∀ k, k ≠ canon lo (π s.toRoute) → s'.rt right k = s.rt right k) →
          RMode lo hi π inv (s'.rt left) (s'.rt right) (upd s.routed s.toRoute true) s.maxUn (other lo (π s.toRoute))),
        ∃ s', routeOne left right lo hi π inv s = some s' ∧ unrouted lo hi s'.routed + 1 ≤ unrouted lo hi s.routed ∧
          (RInv left right lo hi π inv rt0 s' ∨ (s'.toRoute = s'.maxUn ∧ QInv left right lo hi π inv rt0 s')) := by
      intro hgn hexc hm
      obtain ⟨s', r1, st, r2, r3, r4⟩ := fwd_sw (inv := inv) hp hlr hb go xlo xhi hs plan hpx hgn hexc
      refine ⟨s', r1, by rw [st.routed]; exact unrouted_add xlo xhi hx, Or.inl ⟨st.base, r2, ?_, ?_, ?_, ?_, ?_, ?_⟩⟩
      · rw [r3]; exact other_lo _ _
      · rw [r3]; exact hjh
      · rw [r3]; exact hjs
      · rw [r3, hjo]; exact hpx
      · rw [r3, hjo, p3, st.routed]; exact upd_same _ _ _
      · rw [r3, st.routed, st.max]; exact hm s' st r4
    -- the partner on the right
    obtain ⟨z1, z2, z3⟩ := hp.bwd _ (other_lo lo (π s.toRoute)) hjh
    have hzx : inv (other lo (π s.toRoute)) ≠ s.toRoute := by
      intro h; rw [h] at z3; exact other_ne p1 z3.symm
    have hzd : ∀ E, RC lo hi π inv s.routed E → s.routed (inv (other lo (π s.toRoute))) = true → E (inv (other lo (π s.toRoute))) :=
      fun E rc hA => rc _ z1 z2 (by rw [z3]; exact hjs) hA (by rw [z3, hjo, p3, hx])
    have noexc : RC lo hi π inv s.routed (fun _ => False) →
        ∀ i, lo ≤ i → i ≤ hi → s.routed i = true → π i = hi → (hi - lo + 1) % 2 = 0 → s.rt right (hi - 1) = none →
          π s.toRoute = hi - 1 → t = true := by
      intro rc i i1 i2 hA hi' he _ hh
      refine (rc i i1 i2 (by unfold Strt; omega) hA ?_).elim
      rw [hi', show other lo hi = hi - 1 by unfold other canon; omega, ← hh, p3, hx]
    have znew : RC lo hi π inv s.routed (fun _ => False) → upd s.routed s.toRoute true (inv (other lo (π s.toRoute))) = false := by
      intro rc
      refine upd_true_false.2 ⟨hzx, ?_⟩
      rcases hA : s.routed (inv (other lo (π s.toRoute))) with _ | _
      · rfl
      · exact (hzd _ rc hA).elim
    have hinvo : inv (other lo (other lo (π s.toRoute))) = s.toRoute := by rw [hjo, p3]
    cases mode with
    | S hxm par h lc rc ho =>
      have ht : t = false := by
        rcases ht with h' | h'
        · have hcl := canon_hi xlo xhi hs
          have hf := setting_of_dec (other_strt xlo xhi hs) h'
          rw [other_canon xlo] at hf
          obtain ⟨_, _, c⟩ := hb.core.fdef _ _ (canon_lo _ _) (by omega) hf
          have hodd : s.toRoute = canon lo s.toRoute + 1 := by rw [← hxm] at par; unfold canon; omega
          have hoth : other lo s.toRoute = canon lo s.toRoute := by unfold other; omega
          rcases c with c | c | c
          · rw [← hoth, h] at c; cases c
          · rw [← hodd, hx] at c; cases c
          · have := c.2.2
            rw [setting_other t xlo] at this
            unfold settingOf at this
            rw [show decide (s.toRoute = canon lo s.toRoute) = false by simp; omega] at this
            cases t
            · rfl
            · cases this
        · exact h'.2.2
      subst ht
      refine go' (gnone hp hb.core xlo xhi hx hps (rc.mono fun _ _ _ _ h => h.elim)) (noexc rc) fun s' st r4 => ?_
      refine RMode.N (znew rc) (by rw [hinvo]; exact st.new) (by rw [hxm]; exact upd_same _ _ _) (by rw [← hxm]; exact st.new) par
        (by rw [← hxm]; exact upd_true_false.2 ⟨other_ne xlo, h⟩) ((lc.add _).mono fun i _ _ h => ?_)
        ((rc.add _).mono fun i _ _ _ h => ?_) fun h => upd_true_iff.2 (Or.inr (ho h))
      · rcases h with h | h
        · exact h.1.elim
        · rw [h.1, hxm]
      · rw [hinvo]
        rcases h with h | h
        · exact h.1.elim
        · exact h.1
    | N hxo hd hm hmd par hm' lc rc ho =>
      have ht : t = false := tval true hd hxo
      subst ht
      refine go' (gnone hp hb.core xlo xhi hx hps (rc.mono fun _ _ _ _ h => h.elim)) (noexc rc) fun s' st r4 => ?_
      refine RMode.N (znew rc) (by rw [hinvo]; exact st.new) (upd_true_iff.2 (Or.inr hm)) (st.mono _ _ hmd) par
        (upd_true_false.2 ⟨?_, hm'⟩) ((lc.add _).mono fun i i1 _ h => ?_)
        ((rc.add _).mono fun i _ _ _ h => ?_) fun h => upd_true_iff.2 (Or.inr (ho h))
      · intro h
        rw [← h, other_other hb.mlo, hmd] at hd; cases hd
      · rcases h with ⟨h | h, _, h'⟩ | ⟨_, h⟩
        · exact absurd (hoo i i1 h) h'
        · exact h
        · rw [hxo] at h; cases h
      · rw [hinvo]
        rcases h with h | h
        · exact h.1.elim
        · exact h.1
    | X ev hh hxo hd w w1 w2 hw hwp hwd hg lc rc =>
      have ht : t = true := tval false hd hxo
      subst ht
      refine go' (gnone hp hb.core xlo xhi hx hps (rc.mono fun i _ _ _ h => ?_)) (fun _ _ _ _ _ _ _ _ => rfl) fun s' st r4 => ?_
      · exact ⟨by rw [h]; exact hwp, hg, ev⟩
      refine RMode.X ev (upd_true_iff.2 (Or.inr hh)) (by rw [hinvo]; exact st.new) w w1 w2 (upd_true_iff.2 (Or.inr hw)) hwp (st.mono _ _ hwd)
        ?_ ?_ ((lc.add _).mono fun i i1 _ h => ?_) ((rc.add _).mono fun i _ _ _ h => ?_)
      · by_cases hcn : canon lo (π s.toRoute) = hi - 1
        · right
          have := canon_cases p1
          rw [hcn] at this
          have h' : π s.toRoute = hi - 1 := by omega
          rw [h']; unfold other canon; omega
        · left; rw [r4 _ (Ne.symm hcn)]; exact hg
      · rcases hA : s.routed (inv (other lo (π s.toRoute))) with _ | _
        · left; exact upd_true_false.2 ⟨hzx, hA⟩
        · right
          rw [← z3, hzd _ rc hA]; exact hwp
      · rcases h with ⟨h, _, h'⟩ | ⟨_, h⟩
        · exact h' (hoo i i1 h)
        · rw [hxo] at h; cases h
      · rw [hinvo]
        rcases h with h | h
        · exact Or.inr h.1
        · exact Or.inl h.1
    | P od hn hxo hd lc rc =>
      have ht : t = false := tval true hd hxo
      subst ht
      refine go' (gnone hp hb.core xlo xhi hx hps (rc.mono fun _ _ _ _ h => h.elim)) (noexc rc) fun s' st r4 => ?_
      refine RMode.P od (upd_true_false.2 ⟨?_, hn⟩) (znew rc) (by rw [hinvo]; exact st.new) ((lc.add _).mono fun i i1 _ h => ?_)
        ((rc.add _).mono fun i _ _ _ h => ?_)
      · intro h
        have := (hp.bwd hi (by omega) le_rfl).2.2
        rw [h] at this; exact hpx this
      · rcases h with ⟨h, _, h'⟩ | ⟨_, h⟩
        · exact h' (hoo i i1 h)
        · rw [hxo] at h; cases h
      · rw [hinvo]
        rcases h with h | h
        · exact h.1.elim
        · exact h.1

/-! ## Backward step -/

theorem bwd_core {left right lo hi : ℕ} {π inv : ℕ → ℕ} {rt0 : Routing} {s : RSt} {t : Bool} (hp : PermOn lo hi π inv)
    (hlr : left ≠ right) (hb : Base left right lo hi π inv rt0 s) (go : s.goLeft = false)
    (jlo : lo ≤ s.toRoute) (jhi : s.toRoute ≤ hi) (js : ¬Strt lo hi s.toRoute) (zs : ¬Strt lo hi (inv s.toRoute))
    (hd : dec lo hi (s.rt right) s.toRoute = some t)
    (hf : s.rt left (canon lo (inv s.toRoute)) = none ∨ s.rt left (canon lo (inv s.toRoute)) = some (settingOf lo (inv s.toRoute) t)) :
    ∃ s', routeOne left right lo hi π inv s = some s' ∧ Step left right lo hi π inv rt0 s s' (inv s.toRoute) t ∧
      s'.goLeft = true ∧ s'.toRoute = other lo (inv s.toRoute) ∧ s'.rt right = s.rt right := by
  obtain ⟨z1, z2, z3⟩ := hp.bwd _ jlo jhi
  have f1 : ∀ k, k ≠ canon lo (inv s.toRoute) →
      (upd2 s.rt left (canon lo (inv s.toRoute)) (some (settingOf lo (inv s.toRoute) t))) left k = s.rt left k := by
    intro k hk; rw [upd2_same, upd_ne _ _ hk]
  have f2 : (upd2 s.rt left (canon lo (inv s.toRoute)) (some (settingOf lo (inv s.toRoute) t))) left (canon lo (inv s.toRoute)) =
      some (settingOf lo (inv s.toRoute) t) := by rw [upd2_same, upd_same]
  have f3 : s.rt left (canon lo (inv s.toRoute)) = none ∨ s.rt left (canon lo (inv s.toRoute)) =
      (upd2 s.rt left (canon lo (inv s.toRoute)) (some (settingOf lo (inv s.toRoute) t))) left (canon lo (inv s.toRoute)) := by
    rw [f2]; exact hf
  have r1 : (upd2 s.rt left (canon lo (inv s.toRoute)) (some (settingOf lo (inv s.toRoute) t))) right = s.rt right :=
    upd2_col _ _ _ (Ne.symm hlr)
  have hgs := setting_of_dec js hd
  refine ⟨_, routeOne_bwd go jlo jhi js z1 z2 zs hd, ⟨⟨?_, hb.mlo, hb.mhi, base_above hb.above, fun h => upd_true_iff.2 (Or.inr (hb.odd h)), fun h => dec_mono f1 f3 (hb.pre h), ?_⟩,
    rfl, rfl, fun i u h => dec_mono f1 f3 h, dec_of_setting zs f2⟩, rfl, rfl, r1⟩
  · have := Core.add (f' := (upd2 s.rt left (canon lo (inv s.toRoute)) (some (settingOf lo (inv s.toRoute) t))) left)
      (g' := s.rt right) hp hb.core (t := t) z1 z2 zs f1 f2 f3 (by
        right; right
        rw [z3]
        refine ⟨js, fun _ _ => rfl, hgs, Or.inr rfl, ?_⟩
        intro i _ _ _ _ he hn hj
        rw [hj, show canon lo (hi - 1) = hi - 1 by unfold canon; omega, hn] at hgs
        cases hgs)
    rw [z3] at this
    simp only [r1]
    exact this
  · intro c r hcr
    by_cases hc : c = left
    · subst hc
      have : r ≠ canon lo (inv s.toRoute) := by
        intro h; apply hcr; refine ⟨Or.inl rfl, ?_, ?_⟩
        · rw [h]; exact canon_lo _ _
        · have := canon_hi z1 z2 zs; omega
      simp only [f1 r this]
      exact hb.frame _ _ hcr
    · simp only [upd2_col _ _ _ hc]
      exact hb.frame _ _ hcr

theorem bwd_step {left right lo hi : ℕ} {π inv : ℕ → ℕ} {rt0 : Routing} {s : RSt} (hp : PermOn lo hi π inv)
    (hlr : left ≠ right) (hR : RInv left right lo hi π inv rt0 s) :
    ∃ s', routeOne left right lo hi π inv s = some s' ∧ unrouted lo hi s'.routed ≤ unrouted lo hi s.routed ∧
      (LInv left right lo hi π inv rt0 s' ∨ (s'.routed s'.toRoute = true ∧ QInv left right lo hi π inv rt0 s')) := by
  obtain ⟨hb, go, jlo, jhi, js, jo, old, mode⟩ := hR
  obtain ⟨z1, z2, z3⟩ := hp.bwd _ jlo jhi
  have ohi := other_hi jlo jhi js
  obtain ⟨x1, x2, x3⟩ := hp.bwd _ (other_lo lo s.toRoute) ohi
  -- the decision of the right switch
  have hdg : ∀ t, dec lo hi (s.rt left) (inv (other lo s.toRoute)) = some t → dec lo hi (s.rt right) s.toRoute = some (!t) := by
    intro t ht
    obtain ⟨u, u1, _, _, u4⟩ := hb.core.routed _ x1 x2 old
    rw [ht] at u1
    have := Option.some.inj u1
    subst this
    rw [x3] at u4
    rcases u4 with u4 | u4
    · exact dec_other' jlo jhi js u4
    · exact absurd u4.2.1 jo
  have hzs : s.routed (inv s.toRoute) = false → ¬Strt lo hi (inv s.toRoute) := by
    intro h h'; have := hb.odd h'.1; rw [← h'.2, h] at this; cases this
  -- `x` is the right partner of `z`
  have hxz : inv (other lo (π (inv (other lo s.toRoute)))) = inv s.toRoute := by rw [x3, other_other jlo]
  have hzx : inv (other lo (π (inv s.toRoute))) = inv (other lo s.toRoute) := by rw [z3]
  have hne : inv (other lo s.toRoute) ≠ inv s.toRoute := by
    intro h; rw [h, z3] at x3; exact other_ne jlo x3.symm
  have ozz : other lo (other lo (inv s.toRoute)) = inv s.toRoute := other_other z1
  -- when is the left switch set?
  have hfz : ∀ (h : s.routed (inv s.toRoute) = false) (hpre : s.routed hi = true) (E : ℕ → Prop) (lc : LC lo hi s.routed E),
      s.rt left (canon lo (inv s.toRoute)) = none ∨ (s.routed (other lo (inv s.toRoute)) = true ∧ E (other lo (inv s.toRoute))) := by
    intro h hpre E lc
    rcases hfk : s.rt left (canon lo (inv s.toRoute)) with _ | b
    · exact Or.inl rfl
    · right
      have zs := hzs h
      have hcl := canon_hi z1 z2 zs
      obtain ⟨_, _, c⟩ := hb.core.fdef _ b (canon_lo _ _) (by omega) hfk
      have hA : s.routed (other lo (inv s.toRoute)) = true := by
        rcases canon_cases z1 with e | e
        · rcases c with c | c | c
          · rw [← e, h] at c; cases c
          · rwa [show other lo (inv s.toRoute) = canon lo (inv s.toRoute) + 1 by unfold other; omega]
          · rw [show other lo (inv s.toRoute) = hi by unfold other; omega]; exact hpre
        · rcases c with c | c | c
          · rwa [show other lo (inv s.toRoute) = canon lo (inv s.toRoute) by unfold other; omega]
          · rw [← e, h] at c; cases c
          · rw [show inv s.toRoute = hi by omega, hpre] at h; cases h
      exact ⟨hA, lc _ (other_lo _ _) (other_hi z1 z2 zs) (other_strt z1 z2 zs) hA (by rw [ozz, h])⟩
  have hzf : ∀ (zs : ¬Strt lo hi (inv s.toRoute)) E, LC lo hi s.routed E → s.routed (inv s.toRoute) = false → s.routed (other lo (inv s.toRoute)) = true →
      E (other lo (inv s.toRoute)) := fun zs E lc h hA =>
    lc _ (other_lo _ _) (other_hi z1 z2 zs) (other_strt z1 z2 zs) hA (by rw [ozz, h])
  cases mode with
  | N hz hd hm hmd par hm' lc rc ho =>
    have zs := hzs hz
    have hpre : s.routed hi = true := by
      rcases Nat.lt_or_ge s.maxUn hi with h | h
      · exact hb.above hi h le_rfl
      · rw [show hi = s.maxUn by have := hb.mhi; omega]; exact hm
    have hf : s.rt left (canon lo (inv s.toRoute)) = none ∨ s.rt left (canon lo (inv s.toRoute)) = some (settingOf lo (inv s.toRoute) true) := by
      rcases hfz hz hpre _ lc with h | ⟨_, h⟩
      · exact Or.inl h
      · right
        apply setting_of_dec zs
        apply dec_other' z1 z2 zs (t := false)
        rw [h]; exact hmd
    obtain ⟨s', r1, st, r2, r3, r4⟩ := bwd_core hp hlr hb go jlo jhi js zs (hdg false hd) hf
    refine ⟨s', r1, by rw [st.routed]; exact unrouted_le, ?_⟩
    have rc' : RC lo hi π inv (upd s.routed (inv s.toRoute) true) fun _ => False := by
      refine (rc.add _).mono fun i _ _ _ h => ?_
      rcases h with ⟨h, _, h'⟩ | ⟨_, h'⟩
      · rw [h] at h'; exact h' hxz
      · rw [hzx, old] at h'; cases h'
    by_cases hA : s.routed (other lo (inv s.toRoute)) = true
    · right
      have hzm := hzf zs _ lc hz hA
      refine ⟨by rw [r3, st.routed]; exact upd_true_iff.2 (Or.inr hA), st.base, r2, ?_⟩
      rw [st.routed, st.max, r4]
      refine QMode.C ((lc.add _).mono fun i _ _ h => ?_) rc' fun h => upd_true_iff.2 (Or.inr (ho h))
      rcases h with ⟨h, _, h'⟩ | ⟨_, h'⟩
      · rw [h, ← hzm] at h'; exact h' ozz
      · rw [hA] at h'; cases h'
    · have hA : s.routed (other lo (inv s.toRoute)) = false := by simpa using hA
      left
      refine ⟨st.base, r2, by rw [r3]; exact other_lo _ _, by rw [r3]; exact other_hi z1 z2 zs,
        by rw [r3, st.routed]; exact upd_true_false.2 ⟨other_ne z1, hA⟩, ?_⟩
      rw [st.routed, st.max, r4, r3]
      refine LMode.N (by rw [ozz]; exact upd_same _ _ _) (by rw [ozz]; exact st.new) (upd_true_iff.2 (Or.inr hm)) (st.mono _ _ hmd) par
        (upd_true_false.2 ⟨?_, hm'⟩) ((lc.add _).mono fun i _ _ h => ?_) rc' fun h => upd_true_iff.2 (Or.inr (ho h))
      · intro h
        rw [← h, other_other hb.mlo, hm] at hA; cases hA
      · rw [ozz]
        rcases h with h | h
        · exact Or.inr h.1
        · exact Or.inl h.1
  | X ev hh hd w w1 w2 hw hwp hwd hg hz lc rc =>
    have zs : ¬Strt lo hi (inv s.toRoute) := by unfold Strt; omega
    by_cases hzA : s.routed (inv s.toRoute) = true
    · -- the end of the chain: `z` is the packet going to `hi`
      have hj : s.toRoute = hi := hz.resolve_left (by rw [hzA]; simp)
      have hzw : inv s.toRoute = w := by rw [hj, ← hwp, (hp.fwd w w1 w2).2.2]
      have hA : s.routed (other lo (inv s.toRoute)) = true := by
        rcases h : s.routed (other lo (inv s.toRoute)) with _ | _
        · exact (lc _ z1 z2 zs hzA h).elim
        · rfl
      obtain ⟨s', r1, st, r2, r3, r4⟩ := bwd_core hp hlr hb go jlo jhi js zs (hdg true hd)
        (Or.inr (setting_of_dec zs (by rw [hzw]; exact hwd)))
      refine ⟨s', r1, by rw [st.routed]; exact unrouted_le, Or.inr ⟨by rw [r3, st.routed]; exact upd_true_iff.2 (Or.inr hA), st.base, r2, ?_⟩⟩
      rw [st.routed, st.max, r4]
      refine QMode.C ((lc.add _).mono fun i _ _ h => ?_) ((rc.add _).mono fun i _ _ _ h => ?_) fun h => by omega
      · rcases h with ⟨h, _⟩ | ⟨_, h'⟩
        · exact h
        · rw [hA] at h'; cases h'
      · rcases h with ⟨h | h, h1, h'⟩ | ⟨_, h'⟩
        · rw [h] at h'; exact h' hxz
        · exact h1 (by rw [h, hzw])
        · rw [hzx, old] at h'; cases h'
    · have hzA : s.routed (inv s.toRoute) = false := by simpa using hzA
      have hA : s.routed (other lo (inv s.toRoute)) = false := by
        rcases h : s.routed (other lo (inv s.toRoute)) with _ | _
        · rfl
        · exact (hzf zs _ lc hzA h).elim
      have hf := (hfz hzA hh _ lc).resolve_right fun h => h.2
      have hg' : s.rt right (hi - 1) = none := by
        rcases hg with h | h
        · exact h
        · have : inv s.toRoute = w := by rw [h, ← hwp, (hp.fwd w w1 w2).2.2]
          rw [this, hw] at hzA; cases hzA
      obtain ⟨s', r1, st, r2, r3, r4⟩ := bwd_core hp hlr hb go jlo jhi js zs (hdg true hd) (Or.inl hf)
      refine ⟨s', r1, by rw [st.routed]; exact unrouted_le, Or.inl ⟨st.base, r2, by rw [r3]; exact other_lo _ _, by rw [r3]; exact other_hi z1 z2 zs,
        by rw [r3, st.routed]; exact upd_true_false.2 ⟨other_ne z1, hA⟩, ?_⟩⟩
      rw [st.routed, st.max, r4, r3]
      refine LMode.X ev (upd_true_iff.2 (Or.inr hh)) (by rw [ozz]; exact upd_same _ _ _) (by rw [ozz]; exact st.new) w w1 w2 (upd_true_iff.2 (Or.inr hw)) hwp
        (st.mono _ _ hwd) hg' ((lc.add _).mono fun i _ _ h => ?_) ((rc.add _).mono fun i _ _ _ h => ?_)
      · rw [ozz]
        rcases h with h | h
        · exact h.1.elim
        · exact h.1
      · rcases h with ⟨h | h, _, h'⟩ | ⟨_, h'⟩
        · rw [h] at h'; exact absurd hxz h'
        · exact h
        · rw [hzx, old] at h'; cases h'
  | P od hn hz hd lc rc =>
    have zs := hzs hz
    have hA : s.routed (other lo (inv s.toRoute)) = false := by
      rcases h : s.routed (other lo (inv s.toRoute)) with _ | _
      · rfl
      · exact (hzf zs _ lc hz h).elim
    have hf := (hfz hz (hb.odd od) _ lc).resolve_right fun h => h.2
    obtain ⟨s', r1, st, r2, r3, r4⟩ := bwd_core hp hlr hb go jlo jhi js zs (hdg false hd) (Or.inl hf)
    refine ⟨s', r1, by rw [st.routed]; exact unrouted_le, Or.inl ⟨st.base, r2, by rw [r3]; exact other_lo _ _, by rw [r3]; exact other_hi z1 z2 zs,
      by rw [r3, st.routed]; exact upd_true_false.2 ⟨other_ne z1, hA⟩, ?_⟩⟩
    rw [st.routed, st.max, r4, r3]
    refine LMode.P od (upd_true_false.2 ⟨?_, hn⟩) (by rw [ozz]; exact upd_same _ _ _) (by rw [ozz]; exact st.new)
      ((lc.add _).mono fun i _ _ h => ?_) ((rc.add _).mono fun i _ _ _ h => ?_)
    · intro h
      have := (hp.bwd hi (by omega) le_rfl).2.2
      rw [h, z3] at this
      exact js ⟨od, this⟩
    · rw [ozz]
      rcases h with h | h
      · exact h.1.elim
      · exact h.1
    · rcases h with ⟨h, _, h'⟩ | ⟨_, h'⟩
      · rw [h] at h'; exact h' hxz
      · rw [hzx, old] at h'; cases h'

/-! ## Search -/

theorem findUn_spec (lo : ℕ) (A : ℕ → Bool) : ∀ m, lo ≤ m →
    lo ≤ findUn lo A m ∧ findUn lo A m ≤ m ∧ (∀ i, findUn lo A m < i → i ≤ m → A i = true) ∧
    (A (findUn lo A m) = false ∨ findUn lo A m = lo)
  | 0, h => by
    refine ⟨h, le_rfl, fun i h1 h2 => ?_, Or.inr ?_⟩
    · have h1' : 0 < i := h1
      omega
    · show 0 = lo; omega
  | m + 1, h => by
    unfold findUn
    split
    · rename_i hc
      obtain ⟨a, b, c, d⟩ := findUn_spec lo A m (by omega)
      refine ⟨a, by omega, fun i h1 h2 => ?_, d⟩
      by_cases hi : i = m + 1
      · rw [hi]; exact hc.2
      · exact c i h1 (by omega)
    · rename_i hc
      refine ⟨h, le_rfl, fun i h1 h2 => by omega, ?_⟩
      by_cases hl : lo < m + 1
      · left
        rcases hA : A (m + 1) with _ | _
        · rfl
        · exact absurd ⟨hl, hA⟩ hc
      · right; omega

/-- a closed state and an unrouted packet above which all is routed -/
theorem QMode.start {lo hi : ℕ} {π inv : ℕ → ℕ} {f g : ℕ → Option Bool} {A : ℕ → Bool} {m r : ℕ} (lc : LC lo hi A fun _ => False)
    (rc : RC lo hi π inv A fun _ => False) (ho : (hi - lo + 1) % 2 = 1 → A (inv hi) = true)
    (hodd : (hi - lo + 1) % 2 = 1 → A hi = true) (r1 : lo ≤ r) (r2 : r ≤ hi) (hr : A r = false)
    (above : ∀ i, r < i → i ≤ hi → A i = true) (hm : m = r) : LMode lo hi π inv f g A m r := by
  subst hm
  have hs : ¬Strt lo hi m := by
    intro h; have := hodd h.1; rw [← h.2, hr] at this; cases this
  have ho' : A (other lo m) = false := by
    rcases h : A (other lo m) with _ | _
    · rfl
    · exact (lc _ (other_lo _ _) (other_hi r1 r2 hs) (other_strt r1 r2 hs) h (by rw [other_other r1, hr])).elim
  refine LMode.S rfl ?_ ho' lc rc ho
  by_contra hpar
  have h1 := other_hi r1 r2 hs
  have := above (other lo m) (by unfold other canon; omega) h1
  rw [ho'] at this; cases this

/-- the state after the loop -/
structure Fin (left right lo hi : ℕ) (π inv : ℕ → ℕ) (rt0 : Routing) (s : RSt) : Prop where
  core : Core lo hi π inv (s.rt left) (s.rt right) s.np s.npi s.routed
  all : ∀ i, lo ≤ i → i ≤ hi → s.routed i = true
  pre : (hi - lo + 1) % 2 = 0 → dec lo hi (s.rt left) hi = some false
  frame : ∀ c r, ¬((c = left ∨ c = right) ∧ lo ≤ r ∧ r ≤ hi) → s.rt c r = rt0 c r

theorem search_step {left right lo hi : ℕ} {π inv : ℕ → ℕ} {rt0 : Routing} {s : RSt} (h : QInv left right lo hi π inv rt0 s) :
    (findUn lo s.routed s.maxUn < lo ∨ (findUn lo s.routed s.maxUn = lo ∧ s.routed lo = true) →
      Fin left right lo hi π inv rt0 { s with maxUn := findUn lo s.routed s.maxUn }) ∧
    (¬(findUn lo s.routed s.maxUn < lo ∨ (findUn lo s.routed s.maxUn = lo ∧ s.routed lo = true)) →
      LInv left right lo hi π inv rt0
        { s with maxUn := findUn lo s.routed s.maxUn, toRoute := findUn lo s.routed s.maxUn, goLeft := true }) := by
  obtain ⟨hb, go, mode⟩ := h
  obtain ⟨a, b, c, d⟩ := findUn_spec lo s.routed s.maxUn hb.mlo
  have above : ∀ i, findUn lo s.routed s.maxUn < i → i ≤ hi → s.routed i = true := by
    intro i h1 h2
    rcases Nat.lt_or_ge s.maxUn i with h | h
    · exact hb.above i h h2
    · exact c i h1 h
  have hmh := hb.mhi
  constructor
  · intro hfin
    have hlo : findUn lo s.routed s.maxUn = lo ∧ s.routed lo = true := hfin.resolve_left (by omega)
    refine ⟨hb.core, fun i h1 h2 => ?_, hb.pre, hb.frame⟩
    show s.routed i = true
    by_cases h : i = lo
    · rw [h]; exact hlo.2
    · exact above i (by omega) h2
  · intro hnf
    have hr : s.routed (findUn lo s.routed s.maxUn) = false := by
      rcases d with d | d
      · exact d
      · rcases hA : s.routed lo with _ | _
        · rw [d, hA]
        · exact absurd (Or.inr ⟨d, hA⟩) hnf
    refine ⟨⟨hb.core, a, by show findUn lo s.routed s.maxUn ≤ hi; omega, above, hb.odd, hb.pre, hb.frame⟩, rfl, a, by show findUn lo s.routed s.maxUn ≤ hi; omega, hr, ?_⟩
    show LMode lo hi π inv (s.rt left) (s.rt right) s.routed (findUn lo s.routed s.maxUn) (findUn lo s.routed s.maxUn)
    cases mode with
    | C lc rc ho => exact QMode.start lc rc ho hb.odd a (by omega) hr above rfl
    | X ev hm hmd par hm' w w1 w2 hw hwp hwd hg lc rc =>
      have hmlo := hb.mlo
      have hoth : other lo s.maxUn = s.maxUn - 1 := by unfold other canon; omega
      have hrm : findUn lo s.routed s.maxUn = s.maxUn - 1 := by
        by_contra hne
        rcases Nat.lt_or_ge (findUn lo s.routed s.maxUn) (s.maxUn - 1) with h | h
        · have := above (s.maxUn - 1) h (by omega)
          rw [← hoth, hm'] at this; cases this
        · have : findUn lo s.routed s.maxUn = s.maxUn := by omega
          rw [this, hm] at hr; cases hr
      have ho : other lo (findUn lo s.routed s.maxUn) = s.maxUn := by
        rw [hrm, ← hoth, other_other hmlo]
      have hh : s.routed hi = true := by
        rcases Nat.lt_or_ge s.maxUn hi with h | h
        · exact hb.above hi h le_rfl
        · rw [show hi = s.maxUn by omega]; exact hm
      exact LMode.X ev hh (by rw [ho]; exact hm) (by rw [ho]; exact hmd) w w1 w2 hw hwp hwd hg (lc.mono fun i _ _ h => by rw [ho]; exact h) rc

/-- The loop ends, with everything routed. -/
theorem routeLoop_spec {left right lo hi : ℕ} {π inv : ℕ → ℕ} {rt0 : Routing} (hp : PermOn lo hi π inv) (hlr : left ≠ right) :
    ∀ (fuel : ℕ) (s : RSt),
      (LInv left right lo hi π inv rt0 s ∧ 2 * unrouted lo hi s.routed < fuel) ∨
      (RInv left right lo hi π inv rt0 s ∧ 2 * unrouted lo hi s.routed + 1 < fuel) →
      ∃ s', routeLoop left right lo hi π inv fuel s = some s' ∧ Fin left right lo hi π inv rt0 s'
  | 0, s, h => by rcases h with h | h <;> omega
  | fuel + 1, s, h => by
    have search : ∀ s', QInv left right lo hi π inv rt0 s' → 2 * unrouted lo hi s'.routed < fuel →
        ∃ s'', (if findUn lo s'.routed s'.maxUn < lo ∨ (findUn lo s'.routed s'.maxUn = lo ∧ s'.routed lo = true) then
            some { s' with maxUn := findUn lo s'.routed s'.maxUn }
          else routeLoop left right lo hi π inv fuel
            { s' with maxUn := findUn lo s'.routed s'.maxUn, toRoute := findUn lo s'.routed s'.maxUn, goLeft := true }) = some s'' ∧
          Fin left right lo hi π inv rt0 s'' := by
      intro s' hq hf
      obtain ⟨q1, q2⟩ := search_step hq
      split
      · rename_i hc; exact ⟨_, rfl, q1 hc⟩
      · rename_i hc; exact routeLoop_spec hp hlr fuel _ (Or.inl ⟨q2 hc, hf⟩)
    unfold routeLoop
    rcases h with ⟨hL, hf⟩ | ⟨hR, hf⟩
    · obtain ⟨s', r1, hu, r2⟩ := fwd_step hp hlr hL
      rw [r1, Option.bind_some]
      rcases r2 with r2 | ⟨e, r2⟩
      · rw [if_pos (by simp [r2.go])]
        exact routeLoop_spec hp hlr fuel s' (Or.inr ⟨r2, by omega⟩)
      · by_cases hm : s'.routed s'.toRoute = true
        · rw [if_neg (by simp [r2.go, hm])]
          exact search s' r2 (by omega)
        · have hm : s'.routed s'.toRoute = false := by simpa using hm
          rw [if_pos (by simp [hm])]
          refine routeLoop_spec hp hlr fuel s' (Or.inl ⟨⟨r2.base, r2.go, by rw [e]; exact r2.base.mlo, by rw [e]; exact r2.base.mhi, hm, ?_⟩, by omega⟩)
          cases r2.mode with
          | C lc rc ho =>
            exact QMode.start lc rc ho r2.base.odd (by rw [e]; exact r2.base.mlo) (by rw [e]; exact r2.base.mhi) hm
              (by rw [e]; exact r2.base.above) e.symm
          | X _ hmm => rw [e, hmm] at hm; cases hm
    · obtain ⟨s', r1, hu, r2⟩ := bwd_step hp hlr hR
      rw [r1, Option.bind_some]
      rcases r2 with r2 | ⟨e, r2⟩
      · rw [if_pos (by simp [r2.new])]
        exact routeLoop_spec hp hlr fuel s' (Or.inl ⟨r2, by omega⟩)
      · rw [if_neg (by simp [r2.go, e])]
        exact search s' r2 (by omega)

/-! ## Initialisation, and one level -/

theorem upd_false_true {x i : ℕ} : upd (fun _ => false) x true i = true ↔ i = x := by
  rw [upd_true_iff]; simp

theorem unrouted_bound {lo hi : ℕ} (h : lo ≤ hi) (A : ℕ → Bool) : unrouted lo hi A ≤ hi - lo + 1 := by
  unfold unrouted
  refine (Finset.card_filter_le _ _).trans ?_
  rw [Nat.card_Icc]; omega

/-- One level of the routing: everything is routed. -/
theorem level_spec {left right lo hi : ℕ} {π inv : ℕ → ℕ} {rt0 : Routing} (hp : PermOn lo hi π inv) (hlr : left ≠ right)
    (hn : lo + 2 ≤ hi) (h0 : ∀ c r, (c = left ∨ c = right) → lo ≤ r → r ≤ hi → rt0 c r = none) :
    ∃ s0 s, routeInit left right lo hi π rt0 = some s0 ∧ routeLoop left right lo hi π inv (2 * (hi - lo + 1) + 2) s0 = some s ∧
      Fin left right lo hi π inv rt0 s := by
  have fin : ∀ s0, (LInv left right lo hi π inv rt0 s0 ∨ RInv left right lo hi π inv rt0 s0) →
      ∃ s, routeLoop left right lo hi π inv (2 * (hi - lo + 1) + 2) s0 = some s ∧ Fin left right lo hi π inv rt0 s := by
    intro s0 h
    have := unrouted_bound (lo := lo) (hi := hi) (by omega) s0.routed
    rcases h with h | h
    · exact routeLoop_spec hp hlr _ s0 (Or.inl ⟨h, by omega⟩)
    · exact routeLoop_spec hp hlr _ s0 (Or.inr ⟨h, by omega⟩)
  have wrap : ∀ (o : Option RSt) (s0 : RSt), o = some s0 →
      (LInv left right lo hi π inv rt0 s0 ∨ RInv left right lo hi π inv rt0 s0) →
      ∃ s0 s, o = some s0 ∧ routeLoop left right lo hi π inv (2 * (hi - lo + 1) + 2) s0 = some s ∧
        Fin left right lo hi π inv rt0 s := fun o s0 ho h => by
    obtain ⟨s, hs⟩ := fin s0 h
    exact ⟨s0, s, ho, hs⟩
  obtain ⟨p1, p2, p3⟩ := hp.fwd hi (by omega) le_rfl
  obtain ⟨q1, q2, q3⟩ := hp.bwd hi (by omega) le_rfl
  have wh : wire lo hi hi false = hi := wire_hi (by omega)
  unfold routeInit
  by_cases ho : (hi - lo + 1) % 2 = 1
  · simp only [ho, if_true]
    have hst : Strt lo hi hi := ⟨ho, rfl⟩
    by_cases hph : π hi = hi
    · simp only [hph, if_true]
      refine wrap _ _ rfl ?_
      refine Or.inl ⟨⟨⟨?_, ?_, ?_⟩, ?_, ?_, ?_, ?_, ?_, ?_⟩, rfl, ?_, ?_, ?_, ?_⟩
      all_goals try dsimp only
      · intro i i1 i2 hA
        have := upd_false_true.1 hA
        subst this
        exact ⟨false, dec_strt hst, by rw [wh, hph, wh]; exact upd_same _ _ _, by rw [hph, wh]; exact upd_same _ _ _,
          Or.inl (by rw [hph]; exact dec_strt hst)⟩
      · intro k b k1 k2 hk; rw [h0 _ _ (Or.inl rfl) k1 k2] at hk; cases hk
      · intro k b k1 k2 hk; rw [h0 _ _ (Or.inr rfl) k1 k2] at hk; cases hk
      · show lo ≤ hi - 1; omega
      · show hi - 1 ≤ hi; omega
      · intro i h1 h2
        have h1 : hi - 1 < i := h1
        exact upd_false_true.2 (by omega)
      · intro _; exact upd_same _ _ _
      · intro h; omega
      · intro c r _; rfl
      · show lo ≤ hi - 1; omega
      · show hi - 1 ≤ hi; omega
      · show upd (fun _ => false) hi true (hi - 1) = false
        rw [upd_ne _ _ (by omega)]
      · refine QMode.start ?_ ?_ ?_ ?_ (by show lo ≤ hi - 1; omega) (by show hi - 1 ≤ hi; omega) ?_ ?_ rfl
        · intro i _ _ hs hA _; exact hs ⟨ho, upd_false_true.1 hA⟩
        · intro i _ _ hs hA _; rw [upd_false_true.1 hA, hph] at hs; exact hs hst
        · intro _; rw [show inv hi = hi by rw [hph] at p3; exact p3]; exact upd_same _ _ _
        · intro _; exact upd_same _ _ _
        · show upd (fun _ => false) hi true (hi - 1) = false
          rw [upd_ne _ _ (by omega)]
        · intro i h1 h2
          have h1 : hi - 1 < i := h1
          exact upd_false_true.2 (by omega)
    · simp only [hph, if_false]
      have hps : ¬Strt lo hi (π hi) := fun h => hph h.2
      rw [switchOutput_canon false p1 p2 hps, Option.bind_some]
      have oo := other_other p1
      have g1 : ∀ k b, lo ≤ k → k ≤ hi →
          upd2 rt0 right (canon lo (π hi)) (some (settingOf lo (π hi) false)) right k = some b → k = canon lo (π hi) := by
        intro k b k1 k2 hk
        by_contra hne
        rw [upd2_same, upd_ne _ _ hne, h0 _ _ (Or.inr rfl) k1 k2] at hk; cases hk
      have gs : dec lo hi (upd2 rt0 right (canon lo (π hi)) (some (settingOf lo (π hi) false)) right) (π hi) = some false :=
        dec_of_setting hps (by rw [upd2_same, upd_same])
      refine wrap _ _ rfl ?_
      refine Or.inr ⟨⟨⟨?_, ?_, ?_⟩, ?_, ?_, ?_, ?_, ?_, ?_⟩, rfl, other_lo _ _, other_hi p1 p2 hps, other_strt p1 p2 hps, ?_, ?_, ?_⟩
      all_goals try dsimp only
      · intro i i1 i2 hA
        have := upd_false_true.1 hA
        subst this
        exact ⟨false, dec_strt hst, by rw [wh]; exact upd_same _ _ _, by rw [wh]; exact upd_same _ _ _, Or.inl gs⟩
      · intro k b k1 k2 hk
        rw [show upd2 rt0 right (canon lo (π hi)) (some (settingOf lo (π hi) false)) left = rt0 left from upd2_col _ _ _ hlr,
          h0 _ _ (Or.inl rfl) k1 k2] at hk
        cases hk
      · intro k b k1 k2 hk
        have := g1 k b k1 k2 hk
        subst this
        refine ⟨canon_parity _ _, canon_hi p1 p2 hps, ?_⟩
        rcases canon_cases p1 with h | h
        · left; rw [← h, p3]; exact upd_same _ _ _
        · right; rw [← h, p3]; exact upd_same _ _ _
      · show lo ≤ hi - 1; omega
      · show hi - 1 ≤ hi; omega
      · intro i h1 h2
        have h1 : hi - 1 < i := h1
        exact upd_false_true.2 (by omega)
      · intro _; exact upd_same _ _ _
      · intro h; omega
      · intro c r hcr
        by_cases hc : c = right
        · subst hc
          have : r ≠ canon lo (π hi) := by
            intro h; apply hcr; refine ⟨Or.inr rfl, ?_, ?_⟩
            · rw [h]; exact canon_lo _ _
            · have := canon_hi p1 p2 hps; omega
          show upd2 rt0 c (canon lo (π hi)) _ c r = _
          rw [upd2_same, upd_ne _ _ this]
        · show upd2 rt0 right (canon lo (π hi)) _ c r = _
          rw [upd2_col _ _ _ hc]
      · show other lo (other lo (π hi)) ≠ hi
        rw [oo]; exact hph
      · show upd (fun _ => false) hi true (inv (other lo (other lo (π hi)))) = true
        rw [oo, p3]; exact upd_same _ _ _
      · refine RMode.P ho ?_ ?_ ?_ ?_ ?_
        · rcases h : upd (fun _ => false) hi true (inv hi) with _ | _
          · rfl
          · have := upd_false_true.1 h
            rw [this] at q3; exact absurd q3 hph
        · show upd (fun _ => false) hi true (inv (other lo (π hi))) = false
          rcases h : upd (fun _ => false) hi true (inv (other lo (π hi))) with _ | _
          · rfl
          · have h' := upd_false_true.1 h
            have := (hp.bwd _ (other_lo lo (π hi)) (other_hi p1 p2 hps)).2.2
            rw [h'] at this
            exact absurd this.symm (other_ne p1)
        · show dec lo hi _ (inv (other lo (other lo (π hi)))) = some false
          rw [oo, p3]; exact dec_strt hst
        · intro i _ _ hs hA _; exact hs ⟨ho, upd_false_true.1 hA⟩
        · intro i _ _ hs hA _
          show i = inv (other lo (other lo (π hi)))
          rw [oo, p3]; exact upd_false_true.1 hA
  · simp only [ho, if_false]
    have hcn : canon lo hi = hi - 1 := by unfold canon; omega
    refine wrap _ _ rfl ?_
    refine Or.inl ⟨⟨⟨?_, ?_, ?_⟩, ?_, ?_, ?_, ?_, ?_, ?_⟩, rfl, ?_, le_rfl, rfl, ?_⟩
    all_goals try dsimp only
    · intro i i1 i2 hA; cases hA
    · intro k b k1 k2 hk
      by_cases hk' : k = hi - 1
      · subst hk'
        have hk : upd2 rt0 left (hi - 1) (some false) left (hi - 1) = some b := hk
        rw [upd2_same, upd_same] at hk
        refine ⟨by omega, by omega, Or.inr (Or.inr ⟨by omega, by omega, ?_⟩)⟩
        exact (Option.some.inj hk).symm
      · have hk : upd2 rt0 left (hi - 1) (some false) left k = some b := hk
        rw [upd2_same, upd_ne _ _ hk', h0 _ _ (Or.inl rfl) k1 k2] at hk; cases hk
    · intro k b k1 k2 hk
      have hk : upd2 rt0 left (hi - 1) (some false) right k = some b := hk
      rw [upd2_col _ _ _ (Ne.symm hlr), h0 _ _ (Or.inr rfl) k1 k2] at hk; cases hk
    · show lo ≤ hi; omega
    · exact le_rfl
    · intro i h1 h2
      have h1 : hi < i := h1
      omega
    · intro h; omega
    · intro _
      apply dec_of_setting (by unfold Strt; omega)
      show upd2 rt0 left (hi - 1) (some false) left (canon lo hi) = _
      rw [hcn, upd2_same, upd_same]
      unfold settingOf; rw [hcn]; simp; omega
    · intro c r hcr
      show upd2 rt0 left (hi - 1) (some false) c r = _
      by_cases hc : c = left
      · subst hc
        rw [upd2_same, upd_ne]
        intro h; apply hcr; exact ⟨Or.inl rfl, by omega, by omega⟩
      · rw [upd2_col _ _ _ hc]
    · show lo ≤ hi; omega
    · refine QMode.start ?_ ?_ ?_ ?_ (by show lo ≤ hi; omega) le_rfl rfl ?_ rfl
      · intro i _ _ _ hA _; cases hA
      · intro i _ _ _ hA _; cases hA
      · intro h; omega
      · intro h; omega
      · intro i h1 h2
        have h1 : hi < i := h1
        omega

/-! ## What a level gives -/

theorem Fin.spec {left right lo hi : ℕ} {π inv : ℕ → ℕ} {rt0 : Routing} {s : RSt} (hp : PermOn lo hi π inv) (hn : lo + 2 ≤ hi)
    (h : Fin left right lo hi π inv rt0 s) (i : ℕ) (h1 : lo ≤ i) (h2 : i ≤ hi) :
    ∃ t, dec lo hi (s.rt left) i = some t ∧ dec lo hi (s.rt right) (π i) = some t ∧
      s.np (wire lo hi i t) = wire lo hi (π i) t ∧ s.npi (wire lo hi (π i) t) = wire lo hi i t := by
  obtain ⟨t, a, b, c, d⟩ := h.core.routed i h1 h2 (h.all i h1 h2)
  refine ⟨t, a, ?_, b, c⟩
  rcases d with d | ⟨e1, e2, e3, e4⟩
  · exact d
  · obtain ⟨q1, q2, q3⟩ := hp.bwd (hi - 1) (by omega) (by omega)
    obtain ⟨u, _, _, _, d'⟩ := h.core.routed _ q1 q2 (h.all _ q1 q2)
    rw [q3] at d'
    rcases d' with d' | d'
    · have := setting_of_dec (by unfold Strt; omega) d'
      rw [show canon lo (hi - 1) = hi - 1 by unfold canon; omega, e4] at this; cases this
    · omega

theorem wire_range {lo hi i : ℕ} {t : Bool} (h1 : lo ≤ i) (h2 : i ≤ hi) (hs : Strt lo hi i → t = false) :
    lo ≤ wire lo hi i t ∧ wire lo hi i t ≤ hi ∧ (t = true ↔ wire lo hi i t < lo + topHeight (hi - lo + 1)) := by
  unfold wire topHeight Strt at *
  cases t <;> simp at hs ⊢ <;> omega

theorem wire_surj {lo hi : ℕ} {f : ℕ → Option Bool} (h : ∀ i, lo ≤ i → i ≤ hi → ∃ t, dec lo hi f i = some t) (p : ℕ) (h1 : lo ≤ p)
    (h2 : p ≤ hi) : ∃ i t, lo ≤ i ∧ i ≤ hi ∧ dec lo hi f i = some t ∧ wire lo hi i t = p := by
  -- a switch at `c` with `t` wanted
  have sw : ∀ c t, lo ≤ c → c + 1 ≤ hi → (c - lo) % 2 = 0 → ∃ i, lo ≤ i ∧ i ≤ hi ∧ dec lo hi f i = some t ∧ (i - lo) / 2 = (c - lo) / 2 := by
    intro c t c1 c2 c3
    obtain ⟨u, hu⟩ := h c c1 (by omega)
    have hs : ¬Strt lo hi c := by unfold Strt; omega
    by_cases e : u = t
    · exact ⟨c, c1, by omega, by rw [hu, e], rfl⟩
    · refine ⟨other lo c, other_lo _ _, other_hi c1 (by omega) hs, ?_, by unfold other canon; omega⟩
      rw [dec_other c1 (by omega) hs hu]
      cases u <;> cases t <;> simp_all
  by_cases hp : p < lo + (hi - lo + 1) / 2
  · obtain ⟨i, i1, i2, i3, i4⟩ := sw (lo + 2 * (p - lo)) true (by omega) (by omega) (by omega)
    exact ⟨i, true, i1, i2, i3, by unfold wire; simp; omega⟩
  · by_cases hst : Strt lo hi (lo + 2 * (p - lo - (hi - lo + 1) / 2))
    · refine ⟨hi, false, by omega, le_rfl, dec_strt ⟨hst.1, rfl⟩, ?_⟩
      rw [wire_hi (by omega)]
      have := hst.2
      have := hst.1
      omega
    · have : lo + 2 * (p - lo - (hi - lo + 1) / 2) + 1 ≤ hi := by unfold Strt at hst; omega
      obtain ⟨i, i1, i2, i3, i4⟩ := sw (lo + 2 * (p - lo - (hi - lo + 1) / 2)) false (by omega) this (by omega)
      exact ⟨i, false, i1, i2, i3, by unfold wire topHeight; simp; omega⟩

/-- The two inner permutations -/
theorem Fin.perms {left right lo hi : ℕ} {π inv : ℕ → ℕ} {rt0 : Routing} {s : RSt} (hp : PermOn lo hi π inv) (hn : lo + 2 ≤ hi)
    (h : Fin left right lo hi π inv rt0 s) :
    PermOn lo (lo + topHeight (hi - lo + 1) - 1) s.np s.npi ∧ PermOn (lo + topHeight (hi - lo + 1)) hi s.np s.npi := by
  have hd : 1 ≤ topHeight (hi - lo + 1) := by unfold topHeight; omega
  have strtL : ∀ i t, dec lo hi (s.rt left) i = some t → Strt lo hi i → t = false := fun i t ht hs => by
    rw [dec_strt hs] at ht; exact (Option.some.inj ht).symm
  have strtR : ∀ i t, dec lo hi (s.rt right) i = some t → Strt lo hi i → t = false := fun i t ht hs => by
    rw [dec_strt hs] at ht; exact (Option.some.inj ht).symm
  have F : ∀ p, lo ≤ p → p ≤ hi → (lo ≤ s.np p ∧ s.np p ≤ hi ∧ (p < lo + topHeight (hi - lo + 1) ↔ s.np p < lo + topHeight (hi - lo + 1)) ∧ s.npi (s.np p) = p) := by
    intro p p1 p2
    obtain ⟨i, t, i1, i2, i3, i4⟩ := wire_surj (f := s.rt left)
      (fun i h1 h2 => (h.spec hp hn i h1 h2).imp fun t ht => ht.1) p p1 p2
    obtain ⟨t', a, b, c, d⟩ := h.spec hp hn i i1 i2
    rw [i3] at a
    have := Option.some.inj a
    subst this
    obtain ⟨q1, q2, _⟩ := hp.fwd i i1 i2
    obtain ⟨_, _, e1⟩ := wire_range i1 i2 (strtL i t i3)
    obtain ⟨e2, e3, e4⟩ := wire_range q1 q2 (strtR _ t b)
    rw [← i4, c]
    exact ⟨e2, e3, e1.symm.trans e4, d⟩
  have B : ∀ p, lo ≤ p → p ≤ hi → (lo ≤ s.npi p ∧ s.npi p ≤ hi ∧ (p < lo + topHeight (hi - lo + 1) ↔ s.npi p < lo + topHeight (hi - lo + 1)) ∧ s.np (s.npi p) = p) := by
    intro p p1 p2
    obtain ⟨j, t, j1, j2, j3, j4⟩ := wire_surj (f := s.rt right)
      (fun j h1 h2 => by
        obtain ⟨q1, q2, q3⟩ := hp.bwd j h1 h2
        obtain ⟨t, _, b, _⟩ := h.spec hp hn _ q1 q2
        exact ⟨t, by rw [← q3]; exact b⟩) p p1 p2
    obtain ⟨q1, q2, q3⟩ := hp.bwd j j1 j2
    obtain ⟨t', a, b, c, d⟩ := h.spec hp hn _ q1 q2
    rw [q3] at b c d
    rw [j3] at b
    have := Option.some.inj b
    subst this
    obtain ⟨_, _, e1⟩ := wire_range j1 j2 (strtR j t j3)
    obtain ⟨e2, e3, e4⟩ := wire_range q1 q2 (strtL _ t a)
    rw [← j4, d]
    exact ⟨e2, e3, e1.symm.trans e4, c⟩
  refine ⟨⟨fun i h1 h2 => ?_, fun j h1 h2 => ?_⟩, ⟨fun i h1 h2 => ?_, fun j h1 h2 => ?_⟩⟩
  · obtain ⟨a, b, c, d⟩ := F i h1 (by unfold topHeight at *; omega)
    exact ⟨a, by have := c.1 (by omega); omega, d⟩
  · obtain ⟨a, b, c, d⟩ := B j h1 (by unfold topHeight at *; omega)
    exact ⟨a, by have := c.1 (by omega); omega, d⟩
  · obtain ⟨a, b, c, d⟩ := F i (by omega) h2
    exact ⟨by by_contra h'; have := c.2 (by omega); omega, b, d⟩
  · obtain ⟨a, b, c, d⟩ := B j (by omega) h2
    exact ⟨by by_contra h'; have := c.2 (by omega); omega, b, d⟩

end Spu.Model.Waksman

import Verif.Model.CheetahPerm
import Verif.Props.Waksman
import Verif.Props.Shuffle

set_option autoImplicit false
set_option linter.unusedSectionVars false

/-! # C50: permuting additively shared vectors through a Waksman network -/

namespace Spu.Props
open Spu.Model Spu.Model.Waksman Spu.Model.CheetahPerm Spu.Model.Circ Spu.Model.Perm Spu.Spec Spu.Spec.Waksman Spu.Lemmas

/-! ## Each column moves the rows bijectively -/

/-- one column of the network: settings at the upper rows of switches, rows moved injectively -/
structure ColOk (N : ℕ) (nb : Topology) (rt : Routing) (c : ℕ) (h : ℕ → ℕ) : Prop where
  up : UpperOnly rt
  key : ∀ r b, r < N → rt c r = some b → r + 1 < N ∧ rt c (r + 1) = none ∧ (nb c r).1 ≠ (nb c r).2 ∧ nb c (r + 1) = ((nb c r).2, (nb c r).1)
  cov : ∀ r, r < N → (nb c r).1 ≠ (nb c r).2 → (∃ b, rt c r = some b) ∨ (1 ≤ r ∧ ∃ b, rt c (r - 1) = some b)
  hop : ∀ r, r < N → hop nb rt c r = some (h r)
  lt : ∀ r, r < N → h r < N
  inj : ∀ r r', r < N → r' < N → h r = h r' → r = r'

theorem travel_one (nb : Topology) (rt : Routing) (c r : ℕ) : travel nb rt c 1 r = hop nb rt c r := by
  unfold travel travel
  rcases hop nb rt c r with _ | a <;> rfl

/-- Every prefix of the network moves the rows bijectively. -/
theorem prefix_bij {n : ℕ} {π : ℕ → ℕ} (h : IsPerm n π) {nb : Topology} {rt : Routing}
    (out : ∀ c r, ¬(c < numColumns n ∧ r < n) → nb c r = (-1, -1)) (dl : ∀ i, i < n → travel nb rt 0 (numColumns n) i = some (π i)) (c : ℕ)
    (hc : c ≤ numColumns n) : ∃ a : ℕ → ℕ, IsPerm n a ∧ ∀ i, i < n → travel nb rt 0 c i = some (a i) := by
  have key : ∀ i, i < n → ∃ a, travel nb rt 0 c i = some a ∧ a < n ∧ travel nb rt c (numColumns n - c) a = some (π i) := by
    intro i hi
    have h1 := dl i hi
    rw [show numColumns n = c + (numColumns n - c) by omega, travel_append] at h1
    rcases ht : travel nb rt 0 c i with _ | a
    · rw [ht] at h1; simp at h1
    · rw [ht, Option.bind_some, Nat.zero_add] at h1
      refine ⟨a, rfl, ?_, h1⟩
      by_contra hlt
      rcases hk : numColumns n - c with _ | k
      · rw [hk] at h1
        simp only [travel, Option.some.injEq] at h1
        have := h.1 i hi; omega
      · rw [hk] at h1
        have : hop nb rt c a = none := by unfold hop; simp [out c a (by omega)]
        simp [travel, this] at h1
  choose! a h1 h2 h3 using key
  refine ⟨a, ⟨fun i hi => h2 i hi, fun i j hi hj e => ?_⟩, fun i hi => h1 i hi⟩
  have := h3 i hi
  rw [e, h3 j hj] at this
  exact h.2 i j hi hj (Option.some.inj this).symm

theorem isPerm_surj {n : ℕ} {π : ℕ → ℕ} (h : IsPerm n π) {j : ℕ} (hj : j < n) : ∃ i, i < n ∧ π i = j := by
  have := (permOn_of_isPerm (by omega) h).bwd j (by omega) (by omega)
  exact ⟨_, by omega, this.2.2⟩

theorem waksman_columns {n : ℕ} (hn : 2 ≤ n) {π : ℕ → ℕ} (h : IsPerm n π) : ∃ nb rt, topology n = some nb ∧ getRouting n π = some rt ∧
    (∀ i, i < n → travel nb rt 0 (numColumns n) i = some (π i)) ∧ ∀ c, c < numColumns n → ∃ g, ColOk n nb rt c g := by
  obtain ⟨nb, rt, e1, e2, f1, f2, sh, hu, dl⟩ := waksman_all hn h
  refine ⟨nb, rt, e1, e2, dl, fun c hc => ?_⟩
  obtain ⟨a, pa, ha⟩ := prefix_bij h f1 dl c (by omega)
  obtain ⟨b, pb, hb⟩ := prefix_bij h f1 dl (c + 1) (by omega)
  have step : ∀ i, i < n → hop nb rt c (a i) = some (b i) := by
    intro i hi
    have := hb i hi
    rw [travel_append, ha i hi, Option.bind_some, travel_one, Nat.zero_add] at this
    exact this
  have hex : ∀ r, r < n → ∃ g, ∃ i, i < n ∧ a i = r ∧ g = b i := fun r hr => by
    obtain ⟨i, h1, h2⟩ := isPerm_surj pa hr
    exact ⟨_, i, h1, h2, rfl⟩
  choose! g hg using hex
  refine ⟨g, ⟨hu, fun r b hr hb => ?_, fun r hr hne => ?_, fun r hr => ?_, fun r hr => ?_, fun r r' hr hr' e => ?_⟩⟩
  · obtain ⟨x1, x2, x3, x4⟩ := (sh c r (by omega) (by omega) (by omega) (by omega)).1 b hb
    exact ⟨by omega, x2, x3, x4⟩
  · exact (sh c r (by omega) (by omega) (by omega) (by omega)).2 hne
  · obtain ⟨i, h1, h2, h3⟩ := hg r hr
    rw [h3, ← h2, step i h1]
  · obtain ⟨i, h1, h2, h3⟩ := hg r hr
    rw [h3]; exact pb.1 i h1
  · obtain ⟨i, h1, h2, h3⟩ := hg r hr
    obtain ⟨j, k1, k2, k3⟩ := hg r' hr'
    rw [h3, k3] at e
    rw [← h2, ← k2, pb.2 i j h1 k1 e]

theorem hop_value {nb : Topology} {rt : Routing} {c r q : ℕ} {b : Bool} (hs : setting rt c r = some b) (hne : (nb c r).1 ≠ (nb c r).2)
    (h : hop nb rt c r = some q) : (if b then (nb c r).2 else (nb c r).1) = (q : ℤ) := by
  unfold hop at h
  rw [if_neg hne, hs] at h
  simp only [Option.map_some, Option.bind_some] at h
  generalize (if b then (nb c r).2 else (nb c r).1) = z at h ⊢
  split at h
  · have := Option.some.inj h; omega
  · cases h

theorem ColOk.switch {N : ℕ} {nb : Topology} {rt : Routing} {c : ℕ} {h : ℕ → ℕ} (ok : ColOk N nb rt c h) {k : ℕ} {b : Bool} (hk : k < N)
    (hb : rt c k = some b) : (nb c k).1 = ((if b then h (k + 1) else h k : ℕ) : ℤ) ∧ (nb c k).2 = ((if b then h k else h (k + 1) : ℕ) : ℤ) := by
  obtain ⟨x1, x2, x3, x4⟩ := ok.key k b hk hb
  have h1 := hop_value (setting_upper ok.up hb) x3 (ok.hop k hk)
  have h2 := hop_value (setting_lower ok.up hb) (by rw [x4]; exact Ne.symm x3) (ok.hop (k + 1) x1)
  rw [x4] at h2
  cases b
  · exact ⟨h1, h2⟩
  · exact ⟨h2, h1⟩

theorem ColOk.straight {N : ℕ} {nb : Topology} {rt : Routing} {c : ℕ} {h : ℕ → ℕ} (ok : ColOk N nb rt c h) {k : ℕ} (hk : k < N)
    (hw : (nb c k).1 = (nb c k).2) : (nb c k).1 = (h k : ℤ) := by
  have h1 := ok.hop k hk
  unfold Waksman.hop at h1
  rw [if_pos hw] at h1
  simp only [Option.bind_some] at h1
  split at h1
  · have := Option.some.inj h1; omega
  · cases h1

/-! ## The lists of a column -/

/-- rows below `i` with a recorded setting -/
def keysBelow (rt : Routing) (c i : ℕ) : List ℕ := (List.range i).filter fun r => (rt c r).isSome
def wiresBelow (nb : Topology) (c i : ℕ) : List ℕ := (List.range i).filter fun r => decide ((nb c r).1 = (nb c r).2)

theorem keysBelow_succ (rt : Routing) (c i : ℕ) : keysBelow rt c (i + 1) = keysBelow rt c i ++ if (rt c i).isSome then [i] else [] := by
  unfold keysBelow
  rw [List.range_succ, List.filter_append]
  congr 1
  by_cases h : (rt c i).isSome <;> simp [h]

theorem wiresBelow_succ (nb : Topology) (c i : ℕ) :
    wiresBelow nb c (i + 1) = wiresBelow nb c i ++ if (nb c i).1 = (nb c i).2 then [i] else [] := by
  unfold wiresBelow
  rw [List.range_succ, List.filter_append]
  congr 1
  by_cases h : (nb c i).1 = (nb c i).2 <;> simp [h]

theorem collect_spec {N : ℕ} {nb : Topology} {rt : Routing} {c : ℕ} {h : ℕ → ℕ} (ok : ColOk N nb rt c h) : ∀ i, i ≤ N →
    ∃ s, collect nb rt c i = some s ∧ (s.app = true ↔ ¬(1 ≤ i ∧ (rt c (i - 1)).isSome = true)) ∧ s.lhs = keysBelow rt c i ∧
      s.rhs = (keysBelow rt c (i - 1)).map (· + 1) ∧ s.top = (keysBelow rt c i).map (fun k => (nb c k).1) ∧
      s.bot = (keysBelow rt c i).map (fun k => (nb c k).2) ∧ s.flag = (keysBelow rt c i).map (fun k => (rt c k).getD false) ∧
      s.sLast = wiresBelow nb c i ∧ s.sCur = (wiresBelow nb c i).map fun k => (nb c k).1
  | 0, _ => ⟨_, rfl, by simp, rfl, rfl, rfl, rfl, rfl, rfl, rfl⟩
  | i + 1, hi => by
    obtain ⟨s, e, a1, a2, a3, a4, a5, a6, a7, a8⟩ := collect_spec ok i (by omega)
    unfold collect
    rw [e, Option.bind_some]
    have hprev : 1 ≤ i → keysBelow rt c i = keysBelow rt c (i - 1) ++ if (rt c (i - 1)).isSome then [i - 1] else [] := fun h1 => by
      have := keysBelow_succ rt c (i - 1)
      rwa [show i - 1 + 1 = i by omega] at this
    by_cases hw : (nb c i).1 = (nb c i).2
    · have hk : rt c i = none := by
        rcases hk : rt c i with _ | b
        · rfl
        · exact absurd hw (ok.key i b (by omega) hk).2.2.1
      have hnp : ¬(1 ≤ i ∧ (rt c (i - 1)).isSome = true) := by
        rintro ⟨h1, h2⟩
        obtain ⟨b, hb⟩ := Option.isSome_iff_exists.mp h2
        obtain ⟨_, _, x3, x4⟩ := ok.key (i - 1) b (by omega) hb
        rw [show i - 1 + 1 = i by omega] at x4
        rw [x4] at hw
        exact x3 hw.symm
      rw [if_pos hw]
      have hki : keysBelow rt c (i + 1) = keysBelow rt c i := by rw [keysBelow_succ, hk]; simp
      have hri : (keysBelow rt c (i + 1 - 1)) = keysBelow rt c (i - 1) := by
        rw [Nat.add_sub_cancel]
        by_cases h1 : 1 ≤ i
        · rw [hprev h1, if_neg (fun h2 => hnp ⟨h1, h2⟩)]; simp
        · rw [show i = 0 by omega]
      refine ⟨_, rfl, ?_, ?_, ?_, ?_, ?_, ?_, ?_, ?_⟩
      · simp only [Nat.add_sub_cancel, hk]
        rw [a1]; simp [hnp]
      · rw [hki]; exact a2
      · rw [hri]; exact a3
      · rw [hki]; exact a4
      · rw [hki]; exact a5
      · rw [hki]; exact a6
      · dsimp only; rw [wiresBelow_succ, if_pos hw, a7]
      · dsimp only; rw [wiresBelow_succ, if_pos hw, a8]; simp
    · rw [if_neg hw]
      have hwi : wiresBelow nb c (i + 1) = wiresBelow nb c i := by rw [wiresBelow_succ, if_neg hw]; simp
      by_cases happ : s.app = true
      · have hnp := a1.mp happ
        obtain ⟨b, hb⟩ : ∃ b, rt c i = some b := by
          rcases ok.cov i (by omega) hw with h1 | ⟨h1, b, h2⟩
          · exact h1
          · exact absurd ⟨h1, by rw [h2]; rfl⟩ hnp
        have hki : keysBelow rt c (i + 1) = keysBelow rt c i ++ [i] := by rw [keysBelow_succ, hb]; simp
        have hri : (keysBelow rt c (i + 1 - 1)) = keysBelow rt c (i - 1) := by
          rw [Nat.add_sub_cancel]
          by_cases h1 : 1 ≤ i
          · rw [hprev h1, if_neg (fun h2 => hnp ⟨h1, h2⟩)]; simp
          · rw [show i = 0 by omega]
        rw [if_pos happ, hb]
        refine ⟨_, rfl, ?_, ?_, ?_, ?_, ?_, ?_, ?_, ?_⟩
        · simp [hb]
        · dsimp only; rw [hki, a2]
        · rw [hri]; exact a3
        · dsimp only; rw [hki, a4]; simp
        · dsimp only; rw [hki, a5]; simp
        · dsimp only; rw [hki, a6]; simp [hb]
        · rw [hwi]; exact a7
        · rw [hwi]; exact a8
      · have hp : 1 ≤ i ∧ (rt c (i - 1)).isSome = true := by
          by_contra hcon; exact happ (a1.mpr hcon)
        obtain ⟨b, hb⟩ := Option.isSome_iff_exists.mp hp.2
        have hk : rt c i = none := by
          have := (ok.key (i - 1) b (by omega) hb).2.1
          rwa [show i - 1 + 1 = i by omega] at this
        have hki : keysBelow rt c (i + 1) = keysBelow rt c i := by rw [keysBelow_succ, hk]; simp
        rw [if_neg happ]
        refine ⟨_, rfl, ?_, ?_, ?_, ?_, ?_, ?_, ?_, ?_⟩
        · simp [hk]
        · rw [hki]; exact a2
        · dsimp only
          rw [Nat.add_sub_cancel, hprev hp.1, if_pos hp.2, a3]
          simp; omega
        · rw [hki]; exact a4
        · rw [hki]; exact a5
        · rw [hki]; exact a6
        · rw [hwi]; exact a7
        · rw [hwi]; exact a8

/-! ## Scattering -/

theorem scatter_same {α : Type} (L : List (ℤ × α)) {z : ℕ} {v : α} (hv : ∀ p ∈ L, p.1.toNat = z → p.2 = v) :
    ∀ x : ℕ → α, (x z = v ∨ ∃ p ∈ L, p.1.toNat = z) → (L.foldl (fun y p => upd y p.1.toNat p.2) x) z = v := by
  induction L with
  | nil =>
    intro x hx
    rcases hx with h | ⟨p, hp, _⟩
    · exact h
    · cases hp
  | cons q L ih =>
    intro x hx
    rw [List.foldl_cons]
    apply ih fun p hp => hv p (by simp [hp])
    by_cases hq : q.1.toNat = z
    · left; rw [hq, upd_same]; exact hv q (by simp) hq
    · rcases hx with h | ⟨p, hp, e⟩
      · left; rw [upd_ne _ _ (Ne.symm hq)]; exact h
      · rcases List.mem_cons.mp hp with rfl | hp
        · exact absurd e hq
        · exact Or.inr ⟨p, hp, e⟩

/-! ## One column -/

section
variable {σ : Type} {P w : ℕ} {Inv : σ → Prop}

/-- the secret product: shares of the element-wise product, of the same length -/
def ProdOk (Inv : σ → Prop) (mul : ShL P w → ShL P w → M σ (ShL P w)) : Prop :=
  ∀ (a b : ShL P w) (L : ℕ), (∀ i, (a i).length = L) → (∀ i, (b i).length = L) →
    Ok Inv (mul a b) fun c => (∀ i, (c i).length = L) ∧
      ∀ k, k < L → ∑ i, (c i).getD k 0 = (∑ i, (a i).getD k 0) * ∑ i, (b i).getD k 0

theorem list_as_map {α β : Type} [DecidableEq α] {l : List α} (hl : l.Nodup) {d : List β} (hd : d.length = l.length) (z : β) :
    d = l.map fun k => d.getD (l.idxOf k) z := by
  apply List.ext_getElem
  · simp [hd]
  · intro i h1 h2
    simp only [List.getElem_map]
    rw [List.Nodup.idxOf_getElem hl]
    simp [List.getD, h1]

theorem column_ok {N : ℕ} {nb : Topology} {rt : Routing} {c : ℕ} {h : ℕ → ℕ} (ok : ColOk N nb rt c h)
    {mul : ShL P w → ShL P w → M σ (ShL P w)} (hm : ProdOk Inv mul) (owner : Fin P) (x : Fin P → ℕ → BitVec w) :
    Ok Inv (column mul N nb rt owner x c) fun y => ∀ r, r < N → ∑ i, y i (h r) = ∑ i, x i r := by
  obtain ⟨s, e, a1, a2, a3, a4, a5, a6, a7, a8⟩ := collect_spec ok N le_rfl
  have hKN : keysBelow rt c (N - 1) = keysBelow rt c N := by
    rcases N with _ | N
    · rfl
    · rw [keysBelow_succ, Nat.add_sub_cancel, if_neg, List.append_nil]
      intro hs
      obtain ⟨b, hb⟩ := Option.isSome_iff_exists.mp hs
      have := (ok.key N b (by omega) hb).1
      omega
  rw [hKN] at a3
  have hKm : ∀ k, k ∈ keysBelow rt c N → k < N ∧ ∃ b, rt c k = some b := fun k hk => by
    unfold keysBelow at hk
    rw [List.mem_filter, List.mem_range] at hk
    exact ⟨hk.1, Option.isSome_iff_exists.mp hk.2⟩
  have hWm : ∀ k, k ∈ wiresBelow nb c N → k < N ∧ (nb c k).1 = (nb c k).2 := fun k hk => by
    unfold wiresBelow at hk
    rw [List.mem_filter, List.mem_range, decide_eq_true_eq] at hk
    exact hk
  have hKd : (keysBelow rt c N).Nodup := List.Nodup.filter _ List.nodup_range
  obtain ⟨K, hK⟩ : ∃ K, K = keysBelow rt c N := ⟨_, rfl⟩
  obtain ⟨W, hW⟩ : ∃ W, W = wiresBelow nb c N := ⟨_, rfl⟩
  rw [← hK] at a2 a3 a4 a5 a6 hKm hKd
  rw [← hW] at a7 a8 hWm
  unfold column
  refine ok_liftO e ?_
  refine Ok.enforce (by rw [a2, a3]; simp) ?_
  unfold routeTop
  simp only [bind_assoc, pure_bind]
  refine Ok.bind (hm _ _ K.length (fun i => by simp [a2, a3]) (fun i => by simp [flagShare, a6])) fun d hd => ?_
  obtain ⟨hdl, hdv⟩ := hd
  -- the products, by row
  have hdm : ∀ i, d i = K.map fun k => (d i).getD (K.idxOf k) 0 := fun i => list_as_map hKd (hdl i) 0
  obtain ⟨D, hD⟩ : ∃ D : Fin P → ℕ → BitVec w, D = fun i k => (d i).getD (K.idxOf k) 0 := ⟨_, rfl⟩
  have hdm' : ∀ i, d i = K.map (D i) := fun i => by rw [hD]; exact hdm i
  have hDs : ∀ k ∈ K, ∀ b, rt c k = some b → ∑ i, D i k = (∑ i, (x i (k + 1) - x i k)) * (if b then 1 else 0) := by
    intro k hk b hb
    have hlt : K.idxOf k < K.length := List.idxOf_lt_length_of_mem hk
    have := hdv (K.idxOf k) hlt
    rw [hD]
    simp only
    rw [this]
    congr 1
    · apply Finset.sum_congr rfl
      intro i _
      rw [a2, a3]
      simp [List.getD, hlt]
    · have : ∀ i : Fin P, (flagShare (w := w) owner s.flag i).getD (K.idxOf k) 0 = if i = owner then (if b then 1 else 0) else 0 := by
        intro i
        unfold flagShare
        rw [a6]
        simp [List.getD, hlt, hb]
      simp only [this, Finset.sum_ite_eq', Finset.mem_univ, if_true]
  refine Ok.enforce ?_ (Ok.pure fun r hr => ?_)
  · -- targets in range
    rw [List.all_eq_true]
    intro z hz
    rw [decide_eq_true_eq]
    rw [a4, a5, a8, List.mem_append, List.mem_append, List.mem_map, List.mem_map, List.mem_map] at hz
    have hlt := ok.lt
    rcases hz with (⟨k, hk, rfl⟩ | ⟨k, hk, rfl⟩) | ⟨k, hk, rfl⟩
    · obtain ⟨k1, b, hb⟩ := hKm k hk
      have := hlt k k1
      have := hlt (k + 1) (ok.key k b k1 hb).1
      rw [(ok.switch k1 hb).1]
      cases b <;> simp <;> omega
    · obtain ⟨k1, b, hb⟩ := hKm k hk
      have := hlt k k1
      have := hlt (k + 1) (ok.key k b k1 hb).1
      rw [(ok.switch k1 hb).2]
      cases b <;> simp <;> omega
    · obtain ⟨k1, k2⟩ := hWm k hk
      have := hlt k k1
      rw [ok.straight k1 k2]
      omega
  · -- the values
    obtain ⟨A, hA⟩ : ∃ A : Fin P → ℕ → BitVec w, A = fun i k => x i k + D i k := ⟨_, rfl⟩
    obtain ⟨B, hB⟩ : ∃ B : Fin P → ℕ → BitVec w, B = fun i k => x i k + x i (k + 1) - A i k := ⟨_, rfl⟩
    -- what arrives from row r
    obtain ⟨V, hV⟩ : ∃ V : Fin P → ℕ → BitVec w, V = fun i r =>
        if (nb c r).1 = (nb c r).2 then x i r
        else match rt c r with
          | some b => if b then B i r else A i r
          | none => if (rt c (r - 1)).getD false then A i (r - 1) else B i (r - 1) := ⟨_, rfl⟩
    have Vw : ∀ i k, (nb c k).1 = (nb c k).2 → V i k = x i k := fun i k hk => by rw [hV]; simp [hk]
    have Vk : ∀ i k b, k < N → rt c k = some b → V i k = if b then B i k else A i k := fun i k b hk hb => by
      rw [hV]; simp [hb, (ok.key k b hk hb).2.2.1]
    have Vk' : ∀ i k b, k < N → rt c k = some b → V i (k + 1) = if b then A i k else B i k := fun i k b hk hb => by
      obtain ⟨_, x2, x3, x4⟩ := ok.key k b hk hb
      rw [hV]; simp [hb, x2, x4, Ne.symm x3]
    have hy : ∀ i, (scatter (scatter (scatter (x i) (List.zipWith (· + ·) (s.lhs.map (x i)) (d i)) s.top)
        (List.zipWith (· - ·) (List.zipWith (· + ·) (s.lhs.map (x i)) (s.rhs.map (x i))) (List.zipWith (· + ·) (s.lhs.map (x i)) (d i))) s.bot)
        (s.sLast.map (x i)) s.sCur) (h r) = V i r := by
      intro i
      have e1 : s.top.zip (List.zipWith (· + ·) (s.lhs.map (x i)) (d i)) = K.map fun k => ((nb c k).1, A i k) := by
        rw [a4, a2, hdm' i, hA]
        simp [List.zipWith_map, List.zip_map', List.zipWith_self]
      have e2 : s.bot.zip (List.zipWith (· - ·) (List.zipWith (· + ·) (s.lhs.map (x i)) (s.rhs.map (x i)))
          (List.zipWith (· + ·) (s.lhs.map (x i)) (d i))) = K.map fun k => ((nb c k).2, B i k) := by
        rw [a5, a2, a3, hdm' i, hB, hA]
        simp [List.zipWith_map, List.zip_map', List.zipWith_self]
      have e3 : s.sCur.zip (s.sLast.map (x i)) = W.map fun k => ((nb c k).1, x i k) := by
        rw [a7, a8, List.zip_map']
      unfold scatter
      rw [e1, e2, e3, ← List.foldl_append, ← List.foldl_append, ← List.append_assoc]
      apply scatter_same
      · intro p hp hz
        have hinj := ok.inj
        rw [List.mem_append, List.mem_append, List.mem_map, List.mem_map, List.mem_map] at hp
        rcases hp with (⟨k, hk, rfl⟩ | ⟨k, hk, rfl⟩) | ⟨k, hk, rfl⟩
        · obtain ⟨k1, b, hb⟩ := hKm k hk
          have k2 := (ok.key k b k1 hb).1
          simp only [(ok.switch k1 hb).1, Int.toNat_natCast] at hz
          cases b
          · rw [← hinj k r k1 hr (by simpa using hz)]
            rw [Vk i k false k1 hb]; rfl
          · rw [← hinj (k + 1) r k2 hr (by simpa using hz)]
            rw [Vk' i k true k1 hb]; rfl
        · obtain ⟨k1, b, hb⟩ := hKm k hk
          have k2 := (ok.key k b k1 hb).1
          simp only [(ok.switch k1 hb).2, Int.toNat_natCast] at hz
          cases b
          · rw [← hinj (k + 1) r k2 hr (by simpa using hz)]
            rw [Vk' i k false k1 hb]; rfl
          · rw [← hinj k r k1 hr (by simpa using hz)]
            rw [Vk i k true k1 hb]; rfl
        · obtain ⟨k1, k2⟩ := hWm k hk
          simp only [ok.straight k1 k2, Int.toNat_natCast] at hz
          rw [← hinj k r k1 hr hz, Vw i k k2]
      · right
        by_cases hw : (nb c r).1 = (nb c r).2
        · refine ⟨((nb c r).1, x i r), ?_, by rw [ok.straight hr hw]; simp⟩
          rw [List.mem_append, List.mem_map]
          right
          refine ⟨r, ?_, rfl⟩
          rw [hW]; unfold wiresBelow
          simp [hr, hw]
        · have hmem : ∀ k b, k < N → rt c k = some b → k ∈ K := fun k b k1 hb => by
            rw [hK]; unfold keysBelow; simp [k1, hb]
          rcases ok.cov r hr hw with ⟨b, hb⟩ | ⟨h1, b, hb⟩
          · cases b
            · refine ⟨((nb c r).1, A i r), ?_, by rw [(ok.switch hr hb).1]; simp⟩
              rw [List.mem_append, List.mem_append, List.mem_map]
              exact Or.inl (Or.inl ⟨r, hmem r _ hr hb, rfl⟩)
            · refine ⟨((nb c r).2, B i r), ?_, by rw [(ok.switch hr hb).2]; simp⟩
              rw [List.mem_append, List.mem_append, List.mem_map, List.mem_map]
              exact Or.inl (Or.inr ⟨r, hmem r _ hr hb, rfl⟩)
          · have hr' : r - 1 < N := by omega
            have hsw := ok.switch hr' hb
            rw [show r - 1 + 1 = r by omega] at hsw
            cases b
            · refine ⟨((nb c (r - 1)).2, B i (r - 1)), ?_, by rw [hsw.2]; simp⟩
              rw [List.mem_append, List.mem_append, List.mem_map, List.mem_map]
              exact Or.inl (Or.inr ⟨r - 1, hmem _ _ hr' hb, rfl⟩)
            · refine ⟨((nb c (r - 1)).1, A i (r - 1)), ?_, by rw [hsw.1]; simp⟩
              rw [List.mem_append, List.mem_append, List.mem_map]
              exact Or.inl (Or.inl ⟨r - 1, hmem _ _ hr' hb, rfl⟩)
    simp only [hy]
    have hmem : ∀ k b, k < N → rt c k = some b → k ∈ K := fun k b k1 hb => by
      rw [hK]; unfold keysBelow; simp [k1, hb]
    have sA : ∀ k b, k < N → rt c k = some b → ∑ i, A i k = if b then ∑ i, x i (k + 1) else ∑ i, x i k := by
      intro k b k1 hb
      rw [hA]
      simp only [Finset.sum_add_distrib, hDs k (hmem k b k1 hb) b hb, Finset.sum_sub_distrib]
      cases b <;> simp
    have sB : ∀ k b, k < N → rt c k = some b → ∑ i, B i k = if b then ∑ i, x i k else ∑ i, x i (k + 1) := by
      intro k b k1 hb
      rw [hB]
      simp only [Finset.sum_sub_distrib, Finset.sum_add_distrib, sA k b k1 hb]
      cases b <;> simp
    by_cases hw : (nb c r).1 = (nb c r).2
    · simp only [Vw _ r hw]
    · rcases ok.cov r hr hw with ⟨b, hb⟩ | ⟨h1, b, hb⟩
      · simp only [Vk _ r b hr hb]
        cases b
        · simpa using sA r false hr hb
        · simpa using sB r true hr hb
      · have hr' : r - 1 < N := by omega
        have hv := fun i => Vk' i (r - 1) b hr' hb
        have hA' := sA (r - 1) b hr' hb
        have hB' := sB (r - 1) b hr' hb
        rw [show r - 1 + 1 = r by omega] at hA' hB'
        simp only [show r - 1 + 1 = r by omega] at hv
        simp only [hv]
        cases b
        · simpa using hB'
        · simpa using hA'

/-- the whole network -/
theorem columns_ok {N : ℕ} {nb : Topology} {rt : Routing} {W : ℕ} {π : ℕ → ℕ} (cols : ∀ c, c < W → ∃ g, ColOk N nb rt c g)
    (dl : ∀ i, i < N → travel nb rt 0 W i = some (π i)) {mul : ShL P w → ShL P w → M σ (ShL P w)} (hm : ProdOk Inv mul) (owner : Fin P)
    (x : Fin P → ℕ → BitVec w) : Ok Inv ((List.range W).foldlM (column mul N nb rt owner) x) fun y => ∀ i, i < N → ∑ p, y p (π i) = ∑ p, x p i := by
  refine Ok.imp (Ok.foldl_range (fun k y => ∀ i, i < N → ∃ r, r < N ∧ travel nb rt 0 k i = some r ∧ ∑ p, y p r = ∑ p, x p i)
    (fun i hi => ⟨i, hi, rfl, rfl⟩) fun k hk y hy => ?_) fun y hy i hi => ?_
  · obtain ⟨g, ok⟩ := cols k hk
    refine Ok.imp (column_ok ok hm owner y) fun z hz i hi => ?_
    obtain ⟨r, hr, ht, hs⟩ := hy i hi
    refine ⟨g r, ok.lt r hr, ?_, by rw [hz r hr, hs]⟩
    rw [travel_append, ht, Option.bind_some, travel_one, Nat.zero_add, ok.hop r hr]
  · obtain ⟨r, _, ht, hs⟩ := hy i hi
    rw [dl i hi] at ht
    rw [Option.some.inj ht, hs]

/-- the element at position `i` goes to position `pv i` -/
theorem secureInvPerm_ok {N : ℕ} (hN : 2 ≤ N) {pv : ℕ → ℕ} (hp : IsPerm N pv) {mul : ShL P w → ShL P w → M σ (ShL P w)} (hm : ProdOk Inv mul)
    (owner : Fin P) (x : Fin P → ℕ → BitVec w) :
    Ok Inv (CheetahPerm.secureInvPerm mul N owner pv x) fun y => ∀ i, i < N → ∑ p, y p (pv i) = ∑ p, x p i := by
  obtain ⟨nb, rt, e1, e2, dl, cols⟩ := waksman_columns hN hp
  unfold CheetahPerm.secureInvPerm
  exact ok_liftO e1 (ok_liftO e2 (columns_ok cols dl hm owner x))

theorem ring2pv_isPerm {N v : ℕ} {perm : Fin N → BitVec v} {π : Equiv.Perm (Fin N)} (hp : Stands (idx perm) π) :
    IsPerm N (ring2pv perm) ∧ ∀ i : Fin N, ring2pv perm i.val = (π i).val := by
  have h : ∀ i : Fin N, ring2pv perm i.val = (π i).val := fun i => by
    unfold ring2pv
    rw [dif_pos i.isLt]
    exact hp i
  refine ⟨⟨fun i hi => ?_, fun i j hi hj he => ?_⟩, h⟩
  · rw [h ⟨i, hi⟩]; exact Fin.isLt _
  · rw [h ⟨i, hi⟩, h ⟨j, hj⟩] at he
    exact congrArg Fin.val (π.injective (Fin.ext he))

theorem ok_assoc {α : Type} {N : ℕ} {mul : ShL P w → ShL P w → M σ (ShL P w)} (hN : 2 ≤ N) (hm : ProdOk Inv mul) {pv : α → ℕ → ℕ} {own : α → Fin P}
    {π : α → Equiv.Perm (Fin N)} (hp : ∀ r, IsPerm N (pv r) ∧ ∀ i : Fin N, pv r i.val = (π r i).val) (l : List α) (x : Fin P → ℕ → BitVec w) :
    Ok Inv (l.foldlM (fun x r => CheetahPerm.secureInvPerm mul N (own r) (pv r) x) x) fun y =>
      ∀ j : Fin N, ∑ p, y p j.val = ∑ p, x p ((l.map fun r => (π r).symm).prod j).val := by
  induction l generalizing x with
  | nil => exact Ok.pure fun j => rfl
  | cons r l ih =>
    rw [List.foldlM_cons]
    refine Ok.bind (secureInvPerm_ok hN (hp r).1 hm (own r) x) fun y hy => ?_
    refine Ok.imp (ih y) fun z hz j => ?_
    rw [hz, List.map_cons, List.prod_cons, Equiv.Perm.mul_apply]
    have h1 := hy _ ((π r).symm ((l.map fun r => (π r).symm).prod j)).isLt
    rw [(hp r).2, Equiv.apply_symm_apply] at h1
    exact h1

/-- C50: a vector permuted by one party's private permutation: the shared value at `i` moves to `π i`. -/
theorem c50_invPermAV {N v : ℕ} (hN : 2 ≤ N) {mul : ShL P w → ShL P w → M σ (ShL P w)} (hm : ProdOk Inv mul) (owner : Fin P)
    {perm : Fin N → BitVec v} {π : Equiv.Perm (Fin N)} (hp : Stands (idx perm) π) (x : Fin P → ℕ → BitVec w) :
    Ok Inv (invPermAV mul owner perm x) fun y => ∀ j : Fin N, ∑ p, y p (π j).val = ∑ p, x p j.val := by
  obtain ⟨h1, h2⟩ := ring2pv_isPerm hp
  refine Ok.imp (secureInvPerm_ok hN h1 hm owner x) fun y hy j => ?_
  rw [← h2]; exact hy j.val j.isLt

/-- C50: the shuffle applies the permutation the parties' vectors stand for. -/
theorem c50_permAM {N v : ℕ} (hN : 2 ≤ N) {mul : ShL P w → ShL P w → M σ (ShL P w)} (hm : ProdOk Inv mul)
    {perm : Fin P → Fin N → BitVec v} {π : Fin P → Equiv.Perm (Fin N)} (hp : ∀ r, Stands (idx (perm r)) (π r)) (x : Fin P → ℕ → BitVec w) :
    Ok Inv (CheetahPerm.permAM mul perm x) fun y => ∀ j : Fin N, ∑ p, y p j.val = ∑ p, x p (shareMeaning π j).val :=
  ok_assoc (own := id) hN hm (fun r => ring2pv_isPerm (hp r)) _ x

/-- C50: the inverse shuffle applies the inverse permutation. -/
theorem c50_invPermAM {N v : ℕ} (hN : 2 ≤ N) {mul : ShL P w → ShL P w → M σ (ShL P w)} (hm : ProdOk Inv mul) {ord : List (Fin N)} (ho : Covers ord)
    {perm : Fin P → Fin N → BitVec v} {π : Fin P → Equiv.Perm (Fin N)} (hp : ∀ r, Stands (idx (perm r)) (π r)) (x : Fin P → ℕ → BitVec w) :
    Ok Inv (CheetahPerm.invPermAM mul ord perm x) fun y => ∀ j : Fin N, ∑ p, y p (shareMeaning π j).val = ∑ p, x p j.val := by
  have hinv : ∀ r, ∃ inv, genInversePerm ord (perm r) = some inv ∧ Stands (idx inv) (π r).symm := fun r => c17_genInversePerm ho (hp r)
  choose inv h1 h2 using hinv
  unfold CheetahPerm.invPermAM
  refine ok_liftO (mapM_shuf (g := inv) fun r _ => h1 r) ?_
  have hg : ∀ r : Fin P, ((List.finRange P).map inv).getD r.val (fun _ => 0) = inv r := fun r => by simp [List.getD]
  simp only [hg]
  refine Ok.imp (ok_assoc (own := id) hN hm (fun r => ring2pv_isPerm (h2 r)) _ x) fun y hy j => ?_
  rw [hy]
  have : ((List.finRange P).reverse.map fun r => ((π r).symm).symm).prod = (shareMeaning π)⁻¹ := by
    unfold shareMeaning
    rw [List.prod_inv_reverse, List.map_reverse, List.map_map]
    rfl
  rw [this]
  simp

/-- C50: shuffling and then unshuffling restores the vector. -/
theorem c50_unshuffle {N v : ℕ} (hN : 2 ≤ N) {mul : ShL P w → ShL P w → M σ (ShL P w)} (hm : ProdOk Inv mul) {ord : List (Fin N)} (ho : Covers ord)
    {perm : Fin P → Fin N → BitVec v} {π : Fin P → Equiv.Perm (Fin N)} (hp : ∀ r, Stands (idx (perm r)) (π r)) (x : Fin P → ℕ → BitVec w) :
    Ok Inv (CheetahPerm.permAM mul perm x >>= CheetahPerm.invPermAM mul ord perm) fun z => ∀ j : Fin N, ∑ p, z p j.val = ∑ p, x p j.val := by
  refine Ok.bind (c50_permAM hN hm hp x) fun y hy => Ok.imp (c50_invPermAM hN hm ho hp y) fun z hz j => ?_
  have := hz ((shareMeaning π).symm j)
  rw [Equiv.apply_symm_apply] at this
  rw [this, hy, Equiv.apply_symm_apply]

/-- A vector of one element cannot be shuffled: the program throws. -/
theorem c50_single_fails {v : ℕ} (mul : ShL P w → ShL P w → M σ (ShL P w)) (owner : Fin P) (perm : Fin 1 → BitVec v) (x : Fin P → ℕ → BitVec w)
    (s : σ) : invPermAV mul owner perm x s = none := by
  unfold invPermAV CheetahPerm.secureInvPerm
  rw [c16_single_packet_fails.1]
  rfl

/-- the product dealt by a trusted party: the first party gets it whole -/
def idealMul : ShL 2 w → ShL 2 w → M Unit (ShL 2 w) := fun a b =>
  pure fun i => if i = 0 then List.zipWith (· * ·) (List.zipWith (· + ·) (a 0) (a 1)) (List.zipWith (· + ·) (b 0) (b 1))
    else (a 1).map fun _ => 0

theorem idealMul_ok : ProdOk (w := w) (fun _ => True) idealMul := by
  intro a b L ha hb s _
  refine ⟨_, s, rfl, trivial, fun i => ?_, fun k hk => ?_⟩
  · fin_cases i <;> simp [ha, hb]
  · have h0 := ha 0; have h1 := ha 1; have h2 := hb 0; have h3 := hb 1
    simp [Fin.sum_univ_two, List.getD, h0, h1, h2, h3, hk]

/-- two parties, five elements: the shares of 10, 20, 30, 40, 50 -/
def perm5 : Fin 2 → ℕ → BitVec 8 := fun p i => if p = 0 then BitVec.ofNat 8 (7 * i + 1) else BitVec.ofNat 8 (10 * (i + 1)) - BitVec.ofNat 8 (7 * i + 1)

example : (CheetahPerm.invPermAV idealMul 1 (fun i : Fin 5 => BitVec.ofNat 8 ((3 * i.val + 1) % 5)) perm5 ()).map
    (fun y => (List.range 5).map fun i => (y.1 0 i + y.1 1 i).toNat) = some [40, 10, 30, 50, 20] := by decide +kernel

example : ∃ π : Equiv.Perm (Fin 5), Stands (idx fun i : Fin 5 => BitVec.ofNat 8 ((3 * i.val + 1) % 5)) π := by
  refine ⟨⟨fun i => 3 * i + 1, fun i => 2 * (i - 1), by decide, by decide⟩, ?_⟩
  unfold Stands idx
  decide

example : (CheetahPerm.permAM idealMul (fun p (i : Fin 5) => BitVec.ofNat 8 (if p = 0 then (3 * i.val + 1) % 5 else 4 - i.val)) perm5 ()).map
    (fun y => (List.range 5).map fun i => (y.1 0 i + y.1 1 i).toNat) = some [20, 50, 30, 10, 40] := by decide +kernel

end

end Spu.Props

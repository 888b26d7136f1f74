import Verif.Lemmas.QuickSort
set_option autoImplicit false
/-! # Partitioning disjoint intervals -/

namespace Spu.Lemmas.QuickSort
open Spu.Model.SortNet Spu.Model.QuickSort Spu.Model.Bits Spu.Props

/-- position `x` is in the interval -/
def InI (iv : ℤ × ℤ) (x : ℤ) : Prop := iv.1 ≤ x ∧ x ≤ iv.2

/-- disjoint intervals -/
def Dj (a b : ℤ × ℤ) : Prop := ∀ x, InI a x → ¬ InI b x

theorem Dj.symm {a b : ℤ × ℤ} (h : Dj a b) : Dj b a := fun x h1 h2 => h x h2 h1

theorem pairwise_dj_eq {α : Type*} {f : α → ℤ × ℤ} {l : List α}
    (h : l.Pairwise fun a b => Dj (f a) (f b)) {a b : α} (ha : a ∈ l) (hb : b ∈ l) {x : ℤ}
    (h1 : InI (f a) x) (h2 : InI (f b) x) : a = b := by
  by_contra hne
  have hs : Std.Symm fun a b => Dj (f a) (f b) := ⟨fun _ _ h => h.symm⟩
  exact h.forall ha hb hne x h1 h2

/-- outcome of the two-pointer loop on one interval -/
structure PR where
  lo : ℤ
  mid : ℤ
  hi : ℤ
  acc : List (ℤ × ℤ)

def PR.iv (r : PR) : ℤ × ℤ := (r.lo, r.hi)

variable {m w : ℕ}

/-- the outcome is right for the rows at hand -/
def Good (le : Row m w → Row m w → Prop) (c : Cols m w) (r : PR) : Prop :=
  r.lo ≤ r.mid ∧ ∃ pred : ℤ → Bool,
    (∀ x, r.lo < x → x ≤ r.hi →
      (pred x = true → le (rz c r.lo) (rz c x)) ∧ (pred x = false → le (rz c x) (rz c r.lo))) ∧
    TP pred (r.lo + 1) r.hi (r.mid + 1) r.mid r.acc

theorem parted {n : ℕ} {le : Row m w → Row m w → Prop} (c : Cols m w)
    (hlen : ∀ o, (c o).length = n) (R : List PR) (hg : ∀ r ∈ R, Good le c r)
    (hrange : ∀ r ∈ R, 0 ≤ r.lo ∧ r.hi < (n : ℤ))
    (hdj : R.Pairwise fun r s => Dj r.iv s.iv) :
    ∃ c1 c2, swap c ((R.flatMap PR.acc).map Prod.fst) ((R.flatMap PR.acc).map Prod.snd) = some c1 ∧
      swap c1 (R.map PR.lo) (R.map PR.mid) = some c2 ∧
      (∀ o, (c2 o).length = n) ∧ (rows n c2).Perm (rows n c) ∧
      (∀ r ∈ R, ∀ x, InI r.iv x → ∃ y, InI r.iv y ∧ rz c2 x = rz c y) ∧
      (∀ x, 0 ≤ x → x < (n : ℤ) → (∀ r ∈ R, ¬ InI r.iv x) → rz c2 x = rz c x) ∧
      (∀ r ∈ R, (∀ x, r.lo ≤ x → x < r.mid → le (rz c2 x) (rz c2 r.mid)) ∧
        (∀ x, r.mid < x → x ≤ r.hi → le (rz c2 r.mid) (rz c2 x))) := by
  -- the pairs lie in their intervals
  have hpos : ∀ r ∈ R, ∀ ab ∈ r.acc, (r.lo < ab.1 ∧ ab.1 ≤ r.mid) ∧ (r.mid < ab.2 ∧ ab.2 ≤ r.hi) := by
    intro r hr ab hab
    obtain ⟨-, pred, -, hT⟩ := hg r hr
    have := hT.pos ab hab
    omega
  have hmid : ∀ r ∈ R, r.lo ≤ r.mid ∧ r.mid ≤ r.hi := by
    intro r hr
    obtain ⟨h1, pred, -, hT⟩ := hg r hr
    exact ⟨h1, hT.hR⟩
  have heq : ∀ r ∈ R, ∀ s ∈ R, ∀ x, r.lo ≤ x → x ≤ r.hi → s.lo ≤ x → x ≤ s.hi → r = s :=
    fun r hr s hs x h1 h2 h3 h4 => pairwise_dj_eq (f := PR.iv) hdj hr hs (x := x) ⟨h1, h2⟩ ⟨h3, h4⟩
  have hC1 : Compat (R.flatMap PR.acc) := by
    refine ⟨fun ab ha cd hc e => ?_, fun ab ha cd hc e => ?_, fun ab ha cd hc e => ?_⟩ <;>
      obtain ⟨r, hr, ha⟩ := List.mem_flatMap.1 ha <;>
      obtain ⟨s, hs, hc⟩ := List.mem_flatMap.1 hc <;>
      have h1 := hpos r hr ab ha <;> have h2 := hpos s hs cd hc <;>
      have h3 := hmid r hr <;> have h4 := hmid s hs
    · have : r = s := heq r hr s hs ab.1 (by omega) (by omega) (by omega) (by omega)
      subst this
      obtain ⟨-, pred, -, hT⟩ := hg r hr
      exact hT.fst ab ha cd hc e
    · have : r = s := heq r hr s hs ab.2 (by omega) (by omega) (by omega) (by omega)
      subst this
      obtain ⟨-, pred, -, hT⟩ := hg r hr
      exact hT.snd ab ha cd hc e
    · have : r = s := heq r hr s hs ab.1 (by omega) (by omega) (by omega) (by omega)
      subst this
      omega
  have hR1 : ∀ ab ∈ R.flatMap PR.acc,
      (0 ≤ ab.1 ∧ ab.1 < (n : ℤ)) ∧ (0 ≤ ab.2 ∧ ab.2 < (n : ℤ)) := by
    intro ab ha
    obtain ⟨r, hr, ha⟩ := List.mem_flatMap.1 ha
    have h1 := hpos r hr ab ha
    have h2 := hrange r hr
    omega
  obtain ⟨c1, s1, l1, v1, p1⟩ := swap_ok c hlen _ hC1 hR1
  have hC2 : Compat (R.map fun r => (r.lo, r.mid)) := by
    refine ⟨fun ab ha cd hc e => ?_, fun ab ha cd hc e => ?_, fun ab ha cd hc e => ?_⟩ <;>
      obtain ⟨r, hr, rfl⟩ := List.mem_map.1 ha <;>
      obtain ⟨s, hs, rfl⟩ := List.mem_map.1 hc <;>
      have h3 := hmid r hr <;> have h4 := hmid s hs <;> dsimp only at e
    · rw [heq r hr s hs r.lo (by omega) (by omega) (by omega) (by omega)]
    · rw [heq r hr s hs r.mid (by omega) (by omega) (by omega) (by omega)]
    · rw [heq r hr s hs r.lo (by omega) (by omega) (by omega) (by omega)]
  have hR2 : ∀ ab ∈ R.map fun r => (r.lo, r.mid),
      (0 ≤ ab.1 ∧ ab.1 < (n : ℤ)) ∧ (0 ≤ ab.2 ∧ ab.2 < (n : ℤ)) := by
    intro ab ha
    obtain ⟨r, hr, rfl⟩ := List.mem_map.1 ha
    have h1 := hmid r hr
    have h2 := hrange r hr
    dsimp only
    omega
  obtain ⟨c2, s2, l2, v2, p2⟩ := swap_ok c1 l1 _ hC2 hR2
  refine ⟨c1, c2, s1, ?_, l2, p2.trans p1, ?_⟩
  · simpa [List.map_map, Function.comp_def] using s2
  -- first exchange, inside an interval
  have f1 : ∀ r ∈ R, ∀ y, r.lo < y → y ≤ r.hi →
      (r.lo < swapFn (R.flatMap PR.acc) y ∧ swapFn (R.flatMap PR.acc) y ≤ r.hi) ∧
      ((y ≤ r.mid → le (rz c (swapFn (R.flatMap PR.acc) y)) (rz c r.lo)) ∧
       (r.mid < y → le (rz c r.lo) (rz c (swapFn (R.flatMap PR.acc) y)))) := by
    intro r hr y hy1 hy2
    obtain ⟨-, pred, hp, hT⟩ := hg r hr
    have hmr := hmid r hr
    rcases swapFn_cases (R.flatMap PR.acc) y with ⟨ab, hab, rfl⟩ | ⟨ab, hab, rfl⟩ | h3
    · rw [swapFn_fst hC1 hab]
      obtain ⟨s, hs, ha⟩ := List.mem_flatMap.1 hab
      have h1 := hpos s hs ab ha
      have : r = s := heq r hr s hs ab.1 (by omega) (by omega) (by omega) (by omega)
      subst this
      refine ⟨by omega, fun _ => (hp ab.2 (by omega) (by omega)).2 (hT.pr ab ha).2,
        fun h => by omega⟩
    · rw [swapFn_snd hC1 hab]
      obtain ⟨s, hs, ha⟩ := List.mem_flatMap.1 hab
      have h1 := hpos s hs ab ha
      have h4 := hmid s hs
      have : r = s := heq r hr s hs ab.2 (by omega) (by omega) (by omega) (by omega)
      subst this
      refine ⟨by omega, fun h => by omega,
        fun _ => (hp ab.1 (by omega) (by omega)).1 (hT.pr ab ha).1⟩
    · rw [swapFn_other h3]
      refine ⟨⟨hy1, hy2⟩, fun h => (hp y hy1 hy2).2 ?_, fun h => (hp y hy1 hy2).1 ?_⟩
      · exact hT.left y (by omega) (by omega) fun ab hab =>
          (h3 ab (List.mem_flatMap.2 ⟨r, hr, hab⟩)).1
      · exact hT.right y h hy2 fun ab hab =>
          (h3 ab (List.mem_flatMap.2 ⟨r, hr, hab⟩)).2
  have f1lo : ∀ r ∈ R, swapFn (R.flatMap PR.acc) r.lo = r.lo := by
    intro r hr
    apply swapFn_other
    intro ab hab
    obtain ⟨s, hs, ha⟩ := List.mem_flatMap.1 hab
    have h1 := hpos s hs ab ha
    have h4 := hmid s hs
    have h5 := hmid r hr
    constructor <;> intro e
    · have : r = s := heq r hr s hs r.lo (by omega) (by omega) (by omega) (by omega)
      subst this; omega
    · have : r = s := heq r hr s hs r.lo (by omega) (by omega) (by omega) (by omega)
      subst this; omega
  -- second exchange
  have f2 : ∀ r ∈ R, ∀ x, r.lo < x → x ≤ r.hi → x ≠ r.mid →
      swapFn (R.map fun r => (r.lo, r.mid)) x = x := by
    intro r hr x h1 h2 hne
    apply swapFn_other
    intro ab hab
    obtain ⟨s, hs, rfl⟩ := List.mem_map.1 hab
    have h4 := hmid s hs
    dsimp only
    constructor <;> intro e
    · have : r = s := heq r hr s hs x (by omega) (by omega) (by omega) (by omega)
      subst this; omega
    · have : r = s := heq r hr s hs x (by omega) (by omega) (by omega) (by omega)
      subst this; omega
  have f2lo : ∀ r ∈ R, swapFn (R.map fun r => (r.lo, r.mid)) r.lo = r.mid := fun r hr =>
    swapFn_fst hC2 (ab := (r.lo, r.mid)) (List.mem_map.2 ⟨r, hr, rfl⟩)
  have f2mid : ∀ r ∈ R, swapFn (R.map fun r => (r.lo, r.mid)) r.mid = r.lo := fun r hr =>
    swapFn_snd hC2 (ab := (r.lo, r.mid)) (List.mem_map.2 ⟨r, hr, rfl⟩)
  have v : ∀ x, 0 ≤ x → x < (n : ℤ) → rz c2 x =
      rz c (swapFn (R.flatMap PR.acc) (swapFn (R.map fun r => (r.lo, r.mid)) x)) := by
    intro x h0 hx
    rw [v2 x h0 hx]
    have := swapFn_range hC2 hR2 h0 hx
    rw [v1 _ this.1 this.2]
  have vmid : ∀ r ∈ R, rz c2 r.mid = rz c r.lo := by
    intro r hr
    have h1 := hmid r hr
    have h2 := hrange r hr
    rw [v r.mid (by omega) (by omega), f2mid r hr, f1lo r hr]
  refine ⟨fun r hr x hx => ?_, fun x h0 hx hno => ?_, fun r hr => ⟨fun x h1 h2 => ?_,
    fun x h1 h2 => ?_⟩⟩
  · have h1 := hmid r hr
    have h2 := hrange r hr
    obtain ⟨hx1, hx2⟩ := hx
    change r.lo ≤ x at hx1
    change x ≤ r.hi at hx2
    by_cases e : x = r.mid
    · exact ⟨r.lo, ⟨le_refl _, by show r.lo ≤ r.hi; omega⟩, by rw [e]; exact vmid r hr⟩
    · rw [v x (by omega) (by omega)]
      by_cases e' : x = r.lo
      · rw [e', f2lo r hr]
        have := (f1 r hr r.mid (by omega) (by omega)).1
        exact ⟨_, ⟨by show r.lo ≤ _; omega, by show _ ≤ r.hi; omega⟩, rfl⟩
      · rw [f2 r hr x (by omega) (by omega) e]
        have := (f1 r hr x (by omega) (by omega)).1
        exact ⟨_, ⟨by show r.lo ≤ _; omega, by show _ ≤ r.hi; omega⟩, rfl⟩
  · rw [v x h0 hx]
    have e2 : swapFn (R.map fun r => (r.lo, r.mid)) x = x := by
      apply swapFn_other
      intro ab hab
      obtain ⟨s, hs, rfl⟩ := List.mem_map.1 hab
      have h4 := hmid s hs
      dsimp only
      constructor <;> rintro rfl
      · exact hno s hs ⟨le_refl _, by show s.lo ≤ s.hi; omega⟩
      · exact hno s hs ⟨h4.1, h4.2⟩
    have e1 : swapFn (R.flatMap PR.acc) x = x := by
      apply swapFn_other
      intro ab hab
      obtain ⟨s, hs, ha⟩ := List.mem_flatMap.1 hab
      have h1 := hpos s hs ab ha
      have h4 := hmid s hs
      constructor <;> rintro rfl
      · exact hno s hs ⟨by show s.lo ≤ _; omega, by show _ ≤ s.hi; omega⟩
      · exact hno s hs ⟨by show s.lo ≤ _; omega, by show _ ≤ s.hi; omega⟩
    rw [e2, e1]
  · have h3 := hmid r hr
    have h4 := hrange r hr
    rw [vmid r hr, v x (by omega) (by omega)]
    by_cases e' : x = r.lo
    · rw [e', f2lo r hr]
      exact (f1 r hr r.mid (by omega) (by omega)).2.1 (le_refl _)
    · rw [f2 r hr x (by omega) (by omega) (by omega)]
      exact (f1 r hr x (by omega) (by omega)).2.1 (by omega)
  · have h3 := hmid r hr
    have h4 := hrange r hr
    rw [vmid r hr, v x (by omega) (by omega), f2 r hr x (by omega) (by omega) (by omega)]
    exact (f1 r hr x (by omega) (by omega)).2.2 h1

/-! ### the invariant -/

/-- two positions that are not in one interval hold rows in order -/
def Sep (le : Row m w → Row m w → Prop) (n : ℕ) (ivs : List (ℤ × ℤ)) (c : Cols m w) : Prop :=
  ∀ p q : ℤ, 0 ≤ p → p < q → q < (n : ℤ) →
    (∃ iv ∈ ivs, iv.1 ≤ p ∧ q ≤ iv.2) ∨ le (rz c p) (rz c q)

/-- rearranging the intervals and refining them keeps the invariant -/
theorem sep_step {n : ℕ} {le : Row m w → Row m w → Prop} {ivs ivs' : List (ℤ × ℤ)}
    {c c' : Cols m w} (hS : Sep le n ivs c) (hr : ∀ iv ∈ ivs, 0 ≤ iv.1 ∧ iv.2 < (n : ℤ))
    (hdj : ivs.Pairwise Dj)
    (hin : ∀ iv ∈ ivs, ∀ x, InI iv x → ∃ y, InI iv y ∧ rz c' x = rz c y)
    (hout : ∀ x, 0 ≤ x → x < (n : ℤ) → (∀ iv ∈ ivs, ¬ InI iv x) → rz c' x = rz c x)
    (hnew : ∀ iv ∈ ivs, ∀ p q, iv.1 ≤ p → p < q → q ≤ iv.2 →
      (∃ iv' ∈ ivs', iv'.1 ≤ p ∧ q ≤ iv'.2) ∨ le (rz c' p) (rz c' q)) :
    Sep le n ivs' c' := by
  intro p q h0 hpq hq
  by_cases hsame : ∃ iv ∈ ivs, iv.1 ≤ p ∧ q ≤ iv.2
  · obtain ⟨iv, hiv, h1, h2⟩ := hsame
    exact hnew iv hiv p q h1 hpq h2
  push Not at hsame
  right
  -- where the two rows come from
  have src : ∀ x, 0 ≤ x → x < (n : ℤ) → ∃ y, rz c' x = rz c y ∧
      ((∃ iv ∈ ivs, InI iv x ∧ InI iv y) ∨ ((∀ iv ∈ ivs, ¬ InI iv x) ∧ y = x)) := by
    intro x h0 hx
    by_cases h : ∃ iv ∈ ivs, InI iv x
    · obtain ⟨iv, hiv, hxi⟩ := h
      obtain ⟨y, hy, e⟩ := hin iv hiv x hxi
      exact ⟨y, e, Or.inl ⟨iv, hiv, hxi, hy⟩⟩
    · push Not at h
      exact ⟨x, hout x h0 hx h, Or.inr ⟨h, rfl⟩⟩
  have heq : ∀ a ∈ ivs, ∀ b ∈ ivs, ∀ x, InI a x → InI b x → a = b := fun a ha b hb x h1 h2 =>
    pairwise_dj_eq (f := fun a => a) hdj ha hb h1 h2
  obtain ⟨p', ep, hp⟩ := src p h0 (by omega)
  obtain ⟨q', eq, hq'⟩ := src q (by omega) hq
  rw [ep, eq]
  have key : 0 ≤ p' ∧ p' < q' ∧ q' < (n : ℤ) ∧ ∀ iv ∈ ivs, iv.1 ≤ p' → ¬ q' ≤ iv.2 := by
    rcases hp with ⟨a, ha, hpa, hpa'⟩ | ⟨hno, rfl⟩ <;>
      rcases hq' with ⟨b, hb, hqb, hqb'⟩ | ⟨hno', rfl⟩
    · have h1 := hsame a ha hpa.1
      have h2 : ¬ b.1 ≤ p := fun h => absurd (hsame b hb h) (by have := hqb.2; omega)
      have hab : a.2 < b.1 := by
        by_contra h
        have e := heq a ha b hb b.1 ⟨by have := hpa.1; omega, by omega⟩
          ⟨le_refl _, by have := hqb.1; have := hqb.2; omega⟩
        rw [e] at h1
        have := hqb.2; omega
      have r1 := hr a ha
      have r2 := hr b hb
      obtain ⟨x1, x2⟩ := hpa'
      obtain ⟨x3, x4⟩ := hqb'
      refine ⟨by omega, by omega, by omega, fun iv hiv h3 h4 => ?_⟩
      have e1 := heq iv hiv a ha p' ⟨h3, by omega⟩ ⟨x1, x2⟩
      rw [e1] at h4; omega
    · have h1 := hsame a ha hpa.1
      have r1 := hr a ha
      obtain ⟨x1, x2⟩ := hpa'
      refine ⟨by omega, by omega, by omega, fun iv hiv h3 h4 => hno' iv hiv ⟨by omega, h4⟩⟩
    · have h2 : ¬ b.1 ≤ p' := fun h => absurd (hsame b hb h) (by have := hqb.2; omega)
      have r2 := hr b hb
      obtain ⟨x3, x4⟩ := hqb'
      refine ⟨by omega, by omega, by omega, fun iv hiv h3 h4 => hno iv hiv ⟨h3, by omega⟩⟩
    · refine ⟨by omega, by omega, by omega, fun iv hiv h3 h4 => ?_⟩
      exact absurd (hsame iv hiv h3) (by omega)
  rcases hS p' q' key.1 key.2.1 key.2.2.1 with ⟨iv, hiv, h1, h2⟩ | h
  · exact absurd h2 (key.2.2.2 iv hiv h1)
  · exact h

end Spu.Lemmas.QuickSort

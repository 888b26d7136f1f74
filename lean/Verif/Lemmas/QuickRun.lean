import Verif.Lemmas.QuickPart
set_option autoImplicit false
/-! # Partition rounds and the merge stage -/

namespace Spu.Lemmas.QuickSort
open Spu.Model.SortNet Spu.Model.QuickSort Spu.Model.Bits Spu.Props

variable {m w : ℕ}

theorem mem_rz {n : ℕ} {c0 c : Cols m w} {D : Row m w → Prop} (h : NetState n c0 c)
    (hD : ∀ i < n, D (rowAt c0 i)) (x : ℤ) (h0 : 0 ≤ x) (hx : x < (n : ℤ)) : D (rz c x) :=
  h.dom hD x.toNat (by omega)

/-- one interval of `Partition` -/
theorem scanStep_ok {n : ℕ} {thres : ℤ} (h0 : 0 ≤ thres) {cmp : ℕ → Row m w → Row m w → Bool}
    {D : Row m w → Prop} {le : Row m w → Row m w → Prop} (hc : ∀ k, Decides (cmp k) D le)
    {c : Cols m w} (hD : ∀ x : ℤ, 0 ≤ x → x < (n : ℤ) → D (rz c x)) (predicate : List Bool)
    (s : Scan) (hs : 0 ≤ s.length) (lo hi : ℤ) (hlo : 0 ≤ lo) (hhi : hi < (n : ℤ))
    (hbig : ¬ hi - lo ≤ thres)
    (hp : ∀ i : ℕ, i < (hi - lo).toNat → predicate.getD (s.length.toNat + i) false =
      cmp (s.length.toNat + i) (rz c lo) (rz c (lo + 1 + i))) :
    ∃ r : PR, r.iv = (lo, hi) ∧ Good le c r ∧ scanStep thres predicate s (lo, hi) =
      { s with
        lhs := s.lhs ++ r.acc.map Prod.fst
        rhs := s.rhs ++ r.acc.map Prod.snd
        length := s.length + (hi - lo)
        pivot := s.pivot ++ [r.lo]
        mid := s.mid ++ [r.mid]
        pos := s.pos ++ [(r.lo, r.mid, r.hi)] } := by
  unfold scanStep
  dsimp only
  rw [if_neg hbig]
  obtain ⟨acc, R, h1, h2, h3⟩ := twoPtr_start
    (fun x : ℤ => predicate.getD (x - (lo + 1) + s.length).toNat false) (lo + 1) hi (by omega)
  rw [h1]
  refine ⟨⟨lo, R, hi, acc⟩, rfl, ⟨by show lo ≤ R; omega, _, fun x hx1 hx2 => ?_, h3⟩, rfl⟩
  have e := hp (x - (lo + 1)).toNat (by simp only at hx1 hx2; omega)
  have e1 : (x - (lo + 1) + s.length).toNat = s.length.toNat + (x - (lo + 1)).toNat := by
    simp only at hx1 hx2; omega
  have e2 : lo + 1 + ((x - (lo + 1)).toNat : ℤ) = x := by simp only at hx1 hx2; omega
  rw [e2] at e
  simp only [e1, e]
  have d1 := hD lo hlo (by simp only at hx1 hx2; omega)
  have d2 := hD x (by simp only at hx1 hx2; omega) (by simp only at hx1 hx2; omega)
  exact ⟨(hc _).yes _ _ d1 d2, (hc _).no _ _ d1 d2⟩

/-- the loop of `Partition` -/
theorem scan_ok {n : ℕ} {thres : ℤ} (h0 : 0 ≤ thres) {cmp : ℕ → Row m w → Row m w → Bool}
    {D : Row m w → Prop} {le : Row m w → Row m w → Prop} (hc : ∀ k, Decides (cmp k) D le)
    {c : Cols m w} (hD : ∀ x : ℤ, 0 ≤ x → x < (n : ℤ) → D (rz c x)) (predicate : List Bool) :
    ∀ (ivs : List (ℤ × ℤ)) (s : Scan), 0 ≤ s.length →
    (∀ iv ∈ ivs, 0 ≤ iv.1 ∧ iv.2 < (n : ℤ)) →
    (∀ (i : ℕ) (hi : i < (cmpValues thres c ivs).length),
      predicate.getD (s.length.toNat + i) false =
        cmp (s.length.toNat + i) (cmpValues thres c ivs)[i].1 (cmpValues thres c ivs)[i].2) →
    ∃ R : List PR, (∀ r ∈ R, Good le c r) ∧
      R.map PR.iv = ivs.filter (fun iv => ¬ iv.2 - iv.1 ≤ thres) ∧
      (ivs.foldl (scanStep thres predicate) s).lhs = s.lhs ++ (R.flatMap PR.acc).map Prod.fst ∧
      (ivs.foldl (scanStep thres predicate) s).rhs = s.rhs ++ (R.flatMap PR.acc).map Prod.snd ∧
      (ivs.foldl (scanStep thres predicate) s).pivot = s.pivot ++ R.map PR.lo ∧
      (ivs.foldl (scanStep thres predicate) s).mid = s.mid ++ R.map PR.mid ∧
      (ivs.foldl (scanStep thres predicate) s).pos =
        s.pos ++ R.map (fun r => (r.lo, r.mid, r.hi)) ∧
      (ivs.foldl (scanStep thres predicate) s).pass =
        s.pass ++ ivs.filter (fun iv => iv.2 - iv.1 ≤ thres) := by
  intro ivs
  induction ivs with
  | nil => intro s _ _ _; exact ⟨[], by simp⟩
  | cons iv ivs ih =>
    intro s hs hr hp
    rw [List.foldl_cons]
    by_cases hb : iv.2 - iv.1 ≤ thres
    · have e : scanStep thres predicate s iv = { s with pass := s.pass ++ [iv] } := by
        unfold scanStep
        dsimp only
        rw [if_pos hb]
      have ev : cmpValues thres c (iv :: ivs) = cmpValues thres c ivs := by
        simp only [cmpValues, List.flatMap_cons]
        rw [if_pos hb, List.nil_append]
      simp only [ev] at hp
      obtain ⟨R, g, r1, r2, r3, r4, r5, r6, r7⟩ := ih (scanStep thres predicate s iv)
        (by rw [e]; exact hs) (fun j hj => hr j (List.mem_cons_of_mem _ hj))
        (by rw [e]; exact hp)
      refine ⟨R, g, ?_, ?_, ?_, ?_, ?_, ?_, ?_⟩
      · rw [r1, List.filter_cons_of_neg (by simpa using hb)]
      · rw [r2, e]
      · rw [r3, e]
      · rw [r4, e]
      · rw [r5, e]
      · rw [r6, e]
      · rw [r7, e, List.filter_cons_of_pos (by simpa using hb)]
        simp
    · have ev : cmpValues thres c (iv :: ivs) =
          ((List.range (iv.2 - iv.1).toNat).map fun i : ℕ => (rz c iv.1, rz c (iv.1 + 1 + i))) ++
            cmpValues thres c ivs := by
        simp only [cmpValues, List.flatMap_cons]
        rw [if_neg hb]
      have hr0 := hr iv (by simp)
      obtain ⟨r, ri, gr, e⟩ := scanStep_ok h0 hc hD predicate s hs iv.1 iv.2 hr0.1 hr0.2 hb (by
        intro i hi
        have := hp i (by rw [ev]; simp; omega)
        simp only [ev] at this
        rw [List.getElem_append_left (by simpa using hi)] at this
        simpa using this)
      have e : scanStep thres predicate s iv = _ := e
      obtain ⟨R, g, r1, r2, r3, r4, r5, r6, r7⟩ := ih (scanStep thres predicate s iv)
        (by rw [e]; show 0 ≤ s.length + _; omega)
        (fun j hj => hr j (List.mem_cons_of_mem _ hj))
        (by
          intro i hi
          have := hp ((iv.2 - iv.1).toNat + i) (by rw [ev]; simp; omega)
          simp only [ev] at this
          rw [List.getElem_append_right (by simp)] at this
          simp only [List.length_map, List.length_range, Nat.add_sub_cancel_left] at this
          have el : (scanStep thres predicate s iv).length.toNat + i =
              s.length.toNat + ((iv.2 - iv.1).toNat + i) := by
            rw [e]
            show (s.length + (iv.2 - iv.1)).toNat + i = _
            omega
          rw [el]
          exact this)
      refine ⟨r :: R, ?_, ?_, ?_, ?_, ?_, ?_, ?_, ?_⟩
      · intro x hx
        rcases List.mem_cons.1 hx with rfl | hx
        · exact gr
        · exact g x hx
      · rw [List.map_cons, r1, ri, List.filter_cons_of_pos (by simpa using hb)]
      · rw [r2, e]; simp
      · rw [r3, e]; simp
      · rw [r4, e]; simp
      · rw [r5, e]; simp
      · rw [r6, e]; simp
      · rw [r7, e, List.filter_cons_of_neg (by simpa using hb)]

/-- the state between two rounds -/
structure QS (le : Row m w → Row m w → Prop) (n : ℕ) (c0 c : Cols m w) (ivs : List (ℤ × ℤ)) :
    Prop where
  net : NetState n c0 c
  range : ∀ iv ∈ ivs, 0 ≤ iv.1 ∧ iv.2 < (n : ℤ)
  dj : ivs.Pairwise Dj
  sep : Sep le n ivs c

/-- the parts of one partitioned interval -/
def parts (p : ℤ × ℤ × ℤ) : List (ℤ × ℤ) :=
  (if p.1 < p.2.1 then [(p.1, p.2.1 - 1)] else []) ++
  (if p.2.1 < p.2.2 then [(p.2.1 + 1, p.2.2)] else [])

theorem mem_parts {p : ℤ × ℤ × ℤ} {iv : ℤ × ℤ} (h : iv ∈ parts p) :
    (p.1 < p.2.1 ∧ iv = (p.1, p.2.1 - 1)) ∨ (p.2.1 < p.2.2 ∧ iv = (p.2.1 + 1, p.2.2)) := by
  unfold parts at h
  rcases List.mem_append.1 h with h | h
  · split at h
    · exact Or.inl ⟨by assumption, by simpa using h⟩
    · simp at h
  · split at h
    · exact Or.inr ⟨by assumption, by simpa using h⟩
    · simp at h

theorem parts_dj (p : ℤ × ℤ × ℤ) : (parts p).Pairwise Dj := by
  unfold parts
  rw [List.pairwise_append]
  refine ⟨?_, ?_, ?_⟩
  · split <;> simp
  · split <;> simp
  · intro a ha b hb x h1 h2
    split at ha <;> split at hb <;> simp at ha hb
    rw [ha] at h1
    rw [hb] at h2
    obtain ⟨-, h1⟩ := h1
    obtain ⟨h2, -⟩ := h2
    simp only at h1 h2
    omega

/-- **`Partition`** keeps the state. -/
theorem partition_ok {n : ℕ} {thres : ℤ} (h0 : 0 ≤ thres) {cmp : ℕ → Row m w → Row m w → Bool}
    {D : Row m w → Prop} {le : Row m w → Row m w → Prop} (hc : ∀ k, Decides (cmp k) D le)
    {c0 c : Cols m w} (hD : ∀ i < n, D (rowAt c0 i)) {ivs : List (ℤ × ℤ)} (hQ : QS le n c0 c ivs) :
    ∃ b c' ivs', partitionRound thres cmp c ivs = some (b, c', ivs') ∧ QS le n c0 c' ivs' := by
  unfold partitionRound
  split
  · exact ⟨false, c, ivs, rfl, hQ⟩
  rw [if_pos (fun o iv hiv _ => by rw [hQ.net.len]; exact hQ.range iv hiv)]
  dsimp only
  set predicate := (cmpValues thres c ivs).zipIdx.map fun ab => cmp ab.2 ab.1.1 ab.1.2 with hpr
  obtain ⟨R, g, r1, r2, r3, r4, r5, r6, r7⟩ := scan_ok h0 hc
    (fun x h1 h2 => mem_rz hQ.net hD x h1 h2) predicate ivs ⟨[], [], [], [], [], [], 0⟩
    (le_refl _) hQ.range (by
      intro i hi
      simp [hpr, List.getD, hi])
  simp only [List.nil_append] at r2 r3 r4 r5 r6 r7
  have hmem : ∀ r ∈ R, r.iv ∈ ivs ∧ ¬ r.hi - r.lo ≤ thres := by
    intro r hr
    have : r.iv ∈ R.map PR.iv := List.mem_map.2 ⟨r, hr, rfl⟩
    rw [r1, List.mem_filter] at this
    exact ⟨this.1, by simpa [PR.iv] using this.2⟩
  have hRdj : R.Pairwise fun r s => Dj r.iv s.iv := by
    rw [← List.pairwise_map (f := PR.iv) (R := Dj), r1]
    exact hQ.dj.filter _
  obtain ⟨c1, c2, s1, s2, l2, p2, k1, k2, k3⟩ := parted c hQ.net.len R g
    (fun r hr => hQ.range r.iv (hmem r hr).1) hRdj
  rw [r2, r3, s1]
  show ∃ b c' ivs', (swap c1 _ _).bind _ = _ ∧ _
  rw [r4, r5, s2]
  refine ⟨true, c2, _, rfl, ?_⟩
  have hnewmem : ∀ iv, iv ∈ (ivs.foldl (scanStep thres predicate)
      ⟨[], [], [], [], [], [], 0⟩).pos.reverse.flatMap parts ↔
      ∃ r ∈ R, iv ∈ parts (r.lo, r.mid, r.hi) := by
    intro iv
    rw [r6]
    simp
  have hsub : ∀ r ∈ R, ∀ iv ∈ parts (r.lo, r.mid, r.hi), ∀ x, InI iv x → InI r.iv x := by
    intro r hr iv hiv x hx
    obtain ⟨h1, pred, -, hT⟩ := g r hr
    have h2 := hT.hR
    rcases mem_parts hiv with ⟨h3, rfl⟩ | ⟨h3, rfl⟩ <;> obtain ⟨x1, x2⟩ := hx <;>
      simp only at h3 x1 x2 <;> exact ⟨by show r.lo ≤ x; omega, by show x ≤ r.hi; omega⟩
  show QS le n c0 c2 ((ivs.foldl (scanStep thres predicate)
      ⟨[], [], [], [], [], [], 0⟩).pass ++ (ivs.foldl (scanStep thres predicate)
      ⟨[], [], [], [], [], [], 0⟩).pos.reverse.flatMap parts)
  refine ⟨⟨l2, p2.trans hQ.net.perm⟩, fun iv hiv => ?_, ?_, ?_⟩
  · rcases List.mem_append.1 hiv with h | h
    · rw [r7] at h
      exact hQ.range iv (List.mem_of_mem_filter h)
    · obtain ⟨r, hr, h⟩ := (hnewmem iv).1 h
      have h2 : 0 ≤ r.lo ∧ r.hi < (n : ℤ) := hQ.range r.iv (hmem r hr).1
      obtain ⟨h1, pred, -, hT⟩ := g r hr
      have h4 := hT.hR
      rcases mem_parts h with ⟨h3, rfl⟩ | ⟨h3, rfl⟩ <;> simp only at h3 ⊢ <;> omega
  · rw [List.pairwise_append]
    refine ⟨by rw [r7]; exact hQ.dj.filter _, ?_, fun a ha b hb x h1 h2 => ?_⟩
    · rw [List.pairwise_flatMap]
      refine ⟨fun p _ => parts_dj p, ?_⟩
      rw [r6, List.pairwise_reverse, List.pairwise_map]
      refine hRdj.imp_of_mem ?_
      intro r s hr hs hd a ha b hb x h1 h2
      exact hd x (hsub r hr b hb x h2) (hsub s hs a ha x h1)
    · rw [r7, List.mem_filter] at ha
      obtain ⟨r, hr, hb⟩ := (hnewmem b).1 hb
      have := pairwise_dj_eq (f := fun a => a) hQ.dj ha.1 (hmem r hr).1 h1 (hsub r hr b hb x h2)
      have h3 := ha.2
      rw [this] at h3
      exact (hmem r hr).2 (by simpa [PR.iv] using h3)
  · refine sep_step (c' := c2) hQ.sep hQ.range hQ.dj (fun iv hiv x hx => ?_) (fun x h1 h2 hno => ?_)
      (fun iv hiv p q h1 hpq h2 => ?_)
    · by_cases hb : iv.2 - iv.1 ≤ thres
      · refine ⟨x, hx, k2 x (by have := (hQ.range iv hiv).1; have := hx.1; omega)
          (by have := (hQ.range iv hiv).2; have := hx.2; omega) fun r hr hxr => ?_⟩
        have := pairwise_dj_eq (f := fun a => a) hQ.dj hiv (hmem r hr).1 hx hxr
        rw [this] at hb
        exact (hmem r hr).2 hb
      · have : iv ∈ R.map PR.iv := by
          rw [r1, List.mem_filter]; exact ⟨hiv, by simpa using hb⟩
        obtain ⟨r, hr, rfl⟩ := List.mem_map.1 this
        exact k1 r hr x hx
    · exact k2 x h1 h2 fun r hr => hno r.iv (hmem r hr).1
    · by_cases hb : iv.2 - iv.1 ≤ thres
      · left
        refine ⟨iv, ?_, h1, h2⟩
        apply List.mem_append_left
        rw [r7, List.mem_filter]
        exact ⟨hiv, by simpa using hb⟩
      · have : iv ∈ R.map PR.iv := by
          rw [r1, List.mem_filter]; exact ⟨hiv, by simpa using hb⟩
        obtain ⟨r, hr, rfl⟩ := List.mem_map.1 this
        obtain ⟨k4, k5⟩ := k3 r hr
        change r.lo ≤ p at h1
        change q ≤ r.hi at h2
        rcases lt_trichotomy p r.mid with hp | hp | hp
        · rcases lt_trichotomy q r.mid with hq | hq | hq
          · left
            refine ⟨(r.lo, r.mid - 1), List.mem_append_right _ ((hnewmem _).2 ⟨r, hr, ?_⟩), h1,
              by show q ≤ r.mid - 1; omega⟩
            unfold parts
            rw [if_pos (by show r.lo < r.mid; omega)]
            simp
          · right
            rw [hq]; exact k4 p h1 hp
          · right
            exact (hc 0).trans _ _ _ (k4 p h1 hp) (k5 q hq h2)
        · right
          rw [hp]; exact k5 q (by omega) h2
        · left
          refine ⟨(r.mid + 1, r.hi), List.mem_append_right _ ((hnewmem _).2 ⟨r, hr, ?_⟩),
            by show r.mid + 1 ≤ p; omega, h2⟩
          unfold parts
          rw [if_pos (show (r.lo, r.mid, r.hi).2.1 < (r.lo, r.mid, r.hi).2.2 by
            show r.mid < r.hi; omega)]
          simp

theorem quickRounds_ok {n : ℕ} {thres : ℤ} (h0 : 0 ≤ thres)
    {quick : ℕ → ℕ → Row m w → Row m w → Bool}
    {D : Row m w → Prop} {le : Row m w → Row m w → Prop} (hc : ∀ r k, Decides (quick r k) D le)
    {c0 : Cols m w} (hD : ∀ i < n, D (rowAt c0 i)) : ∀ (f round : ℕ) (c : Cols m w)
    (ivs : List (ℤ × ℤ)), QS le n c0 c ivs →
    ∃ c' ivs', quickRounds thres quick f round c ivs = some (c', ivs') ∧ QS le n c0 c' ivs' := by
  intro f
  induction f with
  | zero => intro round c ivs hQ; exact ⟨c, ivs, rfl, hQ⟩
  | succ f ih =>
    intro round c ivs hQ
    rw [quickRounds]
    split
    · exact ⟨c, ivs, rfl, hQ⟩
    · obtain ⟨b, c', ivs', h1, h2⟩ := partition_ok h0 (hc round) hD hQ
      rw [h1]
      show ∃ c'' ivs'', (if b then _ else _) = _ ∧ _
      cases b
      · exact ⟨c', ivs', rfl, h2⟩
      · exact ih (round + 1) c' ivs' h2

end Spu.Lemmas.QuickSort

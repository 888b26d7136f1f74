import Verif.Lemmas.QuickMerge
import Verif.Spec.QuickSort
set_option autoImplicit false
/-! # Quick select -/

namespace Spu.Lemmas.QuickSort
open Spu.Model.SortNet Spu.Model.QuickSort Spu.Model.Bits Spu.Props Spu.Lemmas.SortNet

variable {m w : ℕ}

theorem QS.perm {le : Row m w → Row m w → Prop} {n : ℕ} {c0 c : Cols m w}
    {ivs ivs' : List (ℤ × ℤ)} (h : QS le n c0 c ivs) (hp : ivs'.Perm ivs) :
    QS le n c0 c ivs' := by
  refine ⟨h.net, fun iv hiv => h.range iv (hp.subset hiv), ?_, fun p q h1 h2 h3 => ?_⟩
  · exact (hp.pairwise_iff (fun h => Dj.symm h)).2 h.dj
  · rcases h.sep p q h1 h2 h3 with ⟨iv, hiv, h4⟩ | h4
    · exact Or.inl ⟨iv, hp.symm.subset hiv, h4⟩
    · exact Or.inr h4

theorem QS.add_empty {le : Row m w → Row m w → Prop} {n : ℕ} {c0 c : Cols m w}
    {ivs : List (ℤ × ℤ)} (h : QS le n c0 c ivs) {iv : ℤ × ℤ} (he : iv.2 < iv.1)
    (hr : 0 ≤ iv.1 ∧ iv.2 < (n : ℤ)) : QS le n c0 c (iv :: ivs) := by
  refine ⟨h.net, fun jv hjv => ?_, ?_, fun p q h1 h2 h3 => ?_⟩
  · rcases List.mem_cons.1 hjv with rfl | hjv
    · exact hr
    · exact h.range jv hjv
  · rw [List.pairwise_cons]
    refine ⟨fun jv _ x hx => ?_, h.dj⟩
    have := hx.1; have := hx.2; omega
  · rcases h.sep p q h1 h2 h3 with ⟨jv, hjv, h4⟩ | h4
    · exact Or.inl ⟨jv, List.mem_cons_of_mem _ hjv, h4⟩
    · exact Or.inr h4

/-- rearranging one interval and splitting it -/
theorem QS.replace {le : Row m w → Row m w → Prop} {n : ℕ} {c0 c c' : Cols m w}
    {iv : ℤ × ℤ} {L : List (ℤ × ℤ)} (hQ : QS le n c0 c (iv :: L)) (hnet : NetState n c0 c')
    (hin : ∀ x, InI iv x → ∃ y, InI iv y ∧ rz c' x = rz c y)
    (hout : ∀ x, 0 ≤ x → x < (n : ℤ) → ¬ InI iv x → rz c' x = rz c x) (N : List (ℤ × ℤ))
    (hNr : ∀ j ∈ N, 0 ≤ j.1 ∧ j.2 < (n : ℤ)) (hNs : ∀ j ∈ N, ∀ x, InI j x → InI iv x)
    (hNd : N.Pairwise Dj)
    (hcov : ∀ p q, iv.1 ≤ p → p < q → q ≤ iv.2 →
      (∃ j ∈ N, j.1 ≤ p ∧ q ≤ j.2) ∨ le (rz c' p) (rz c' q)) : QS le n c0 c' (N ++ L) := by
  have hd := List.pairwise_cons.1 hQ.dj
  have hLout : ∀ jv ∈ L, ∀ x, InI jv x → rz c' x = rz c x := by
    intro jv hjv x hx
    have hr := hQ.range jv (List.mem_cons_of_mem _ hjv)
    refine hout x (by have := hx.1; omega) (by have := hx.2; omega) fun hi => ?_
    exact hd.1 jv hjv x hi hx
  refine ⟨hnet, fun jv hjv => ?_, ?_, ?_⟩
  · rcases List.mem_append.1 hjv with h | h
    · exact hNr jv h
    · exact hQ.range jv (List.mem_cons_of_mem _ h)
  · rw [List.pairwise_append]
    exact ⟨hNd, hd.2, fun a ha b hb x h1 h2 => hd.1 b hb x (hNs a ha x h1) h2⟩
  · refine sep_step (c' := c') hQ.sep hQ.range hQ.dj (fun jv hjv x hx => ?_)
      (fun x h0 hx hno => ?_) (fun jv hjv p q hp hpq hq => ?_)
    · rcases List.mem_cons.1 hjv with rfl | hjv
      · exact hin x hx
      · exact ⟨x, hx, hLout jv hjv x hx⟩
    · exact hout x h0 hx (hno iv (by simp))
    · rcases List.mem_cons.1 hjv with rfl | hjv
      · rcases hcov p q hp hpq hq with ⟨j, hj, h⟩ | h
        · exact Or.inl ⟨j, List.mem_append_left _ hj, h⟩
        · exact Or.inr h
      · exact Or.inl ⟨jv, List.mem_append_right _ hjv, hp, hq⟩

/-- amount of work left -/
def work (ivs : List (ℤ × ℤ)) : ℕ := (ivs.map fun iv => 2 * ivLen iv + 1).sum

theorem work_append (a b : List (ℤ × ℤ)) : work (a ++ b) = work a + work b := by
  simp [work]

theorem handleSmall_ok {n : ℕ} {cmp : Row m w → Row m w → Bool} {D : Row m w → Prop}
    {le : Row m w → Row m w → Prop} (hc : Decides cmp D le) {c0 c : Cols m w}
    (hD : ∀ i < n, D (rowAt c0 i)) {lo hi : ℤ} {L : List (ℤ × ℤ)} (hsm : hi ≤ lo + 1)
    (hQ : QS le n c0 c ((lo, hi) :: L)) :
    ∃ c', handleSmall cmp c lo hi = some c' ∧ QS le n c0 c' L := by
  unfold handleSmall
  have hr : 0 ≤ lo ∧ hi < (n : ℤ) := hQ.range (lo, hi) (by simp)
  split
  · rename_i he
    subst he
    unfold compSwapSingle
    rw [if_neg (by omega), if_pos (fun o => by rw [hQ.net.len]; omega)]
    have dl := mem_rz hQ.net hD lo (by omega) (by omega)
    have dh := mem_rz hQ.net hD (lo + 1) (by omega) (by omega)
    split
    · rename_i hcmp
      have hP : Compat [(lo, lo + 1)] := by
        refine ⟨fun ab ha cd hc e => ?_, fun ab ha cd hc e => ?_, fun ab ha cd hc e => ?_⟩ <;>
          rw [List.mem_singleton.1 ha, List.mem_singleton.1 hc] 
      obtain ⟨c', h1, h2, h3, h4⟩ := swap_ok c hQ.net.len [(lo, lo + 1)] hP (by
        intro ab hab
        rw [List.mem_singleton.1 hab]
        dsimp only
        omega)
      refine ⟨c', h1, ?_⟩
      have f1 : swapFn [(lo, lo + 1)] lo = lo + 1 :=
        swapFn_fst hP (ab := (lo, lo + 1)) (by simp)
      have f2 : swapFn [(lo, lo + 1)] (lo + 1) = lo :=
        swapFn_snd hP (ab := (lo, lo + 1)) (by simp)
      have := hQ.replace (c' := c') ⟨h2, h4.trans hQ.net.perm⟩ (fun x hx => ?_)
        (fun x h0 hx hno => ?_) [] (by simp) (by simp) (by simp) (fun p q hp hpq hq => ?_)
      · simpa using this
      · obtain ⟨x1, x2⟩ := hx
        simp only at x1 x2
        by_cases e : x = lo
        · exact ⟨lo + 1, ⟨by simp, by simp⟩, by rw [e, h3 lo (by omega) (by omega), f1]⟩
        · have e : x = lo + 1 := by omega
          exact ⟨lo, ⟨by simp, by simp⟩, by rw [e, h3 _ (by omega) (by omega), f2]⟩
      · rw [h3 x h0 hx, swapFn_other]
        intro ab hab
        rw [List.mem_singleton.1 hab]
        constructor <;> rintro rfl
        · exact hno ⟨by simp, by simp⟩
        · exact hno ⟨by simp, by simp⟩
      · right
        simp only at hp hq
        have ep : p = lo := by omega
        have eq : q = lo + 1 := by omega
        subst ep
        subst eq
        rw [h3 p (by omega) (by omega), h3 (p + 1) (by omega) (by omega), f1, f2]
        exact hc.no _ _ dl dh hcmp
    · rename_i hcmp
      refine ⟨c, rfl, ?_⟩
      have := hQ.replace (c' := c) hQ.net (fun x hx => ⟨x, hx, rfl⟩)
        (fun x h0 hx hno => rfl) [] (by simp) (by simp) (by simp) (fun p q hp hpq hq => ?_)
      · simpa using this
      · right
        simp only at hp hq
        have ep : p = lo := by omega
        have eq : q = lo + 1 := by omega
        subst ep
        subst eq
        exact hc.yes _ _ dl dh (by simpa using hcmp)
  · refine ⟨c, rfl, ?_⟩
    have := hQ.replace (c' := c) hQ.net (fun x hx => ⟨x, hx, rfl⟩)
      (fun x h0 hx hno => rfl) [] (by simp) (by simp) (by simp) (fun p q hp hpq hq => ?_)
    · simpa using this
    · simp only at hp hq; omega

theorem twoWay_ok {n : ℕ} {cmp : Row m w → Row m w → Bool} {D : Row m w → Prop}
    {le : Row m w → Row m w → Prop} (hc : Decides cmp D le) {c0 c : Cols m w}
    (hD : ∀ i < n, D (rowAt c0 i)) (cfg : TopKConfig) {lo hi : ℤ} {L : List (ℤ × ℤ)}
    (hbig : ¬ hi ≤ lo + 1) (hQ : QS le n c0 c ((lo, hi) :: L)) :
    ∃ c' more gone, twoWayPartition cmp cfg c lo hi = some (c', more) ∧
      QS le n c0 c' (more ++ gone ++ L) ∧ work more < work [(lo, hi)] ∧
      ∀ iv ∈ gone, ∀ k, cfg.kLo - 1 ≤ k → k ≤ cfg.kHi - 1 → ¬ InI iv k := by
  unfold twoWayPartition
  have hr : 0 ≤ lo ∧ hi < (n : ℤ) := hQ.range (lo, hi) (by simp)
  rw [if_pos (fun o => by rw [hQ.net.len]; exact hr)]
  dsimp only
  obtain ⟨acc, R, h1, h2, h3⟩ := twoPtr_start
    (fun x : ℤ => ((List.range (hi - (lo + 1) + 1).toNat).map fun i : ℕ =>
      cmp (rz c lo) (rz c (lo + 1 + i))).getD (x - (lo + 1)).toNat false) (lo + 1) hi (by omega)
  rw [h1]
  dsimp only
  have hg : Good le c ⟨lo, R, hi, acc⟩ := by
    refine ⟨by show lo ≤ R; omega, _, fun x hx1 hx2 => ?_, h3⟩
    simp only at hx1 hx2
    have e : ((List.range (hi - (lo + 1) + 1).toNat).map fun i : ℕ =>
        cmp (rz c lo) (rz c (lo + 1 + i))).getD (x - (lo + 1)).toNat false =
        cmp (rz c lo) (rz c x) := by
      have hlt : (x - (lo + 1)).toNat < (hi - (lo + 1) + 1).toNat := by omega
      have ex : lo + 1 + ((x - (lo + 1)).toNat : ℤ) = x := by omega
      simp only [List.getD, List.getElem?_map, List.getElem?_range hlt, Option.map_some,
        Option.getD_some, ex]
    simp only [e]
    have d1 := mem_rz hQ.net hD lo (by omega) (by omega)
    have d2 := mem_rz hQ.net hD x (by omega) (by omega)
    exact ⟨hc.yes _ _ d1 d2, hc.no _ _ d1 d2⟩
  have hRhi : R ≤ hi := h3.hR
  obtain ⟨c1, c2, s1, s2, l2, p2, k1, k2, k3⟩ := parted c hQ.net.len [⟨lo, R, hi, acc⟩]
    (by simpa using hg) (by simpa using hr) (by simp)
  simp only [List.flatMap_cons, List.flatMap_nil, List.append_nil, List.map_cons,
    List.map_nil] at s1 s2
  rw [s1]
  show ∃ c' more gone, (swap c1 [lo] [R]).bind _ = _ ∧ _
  rw [s2]
  obtain ⟨k4, k5⟩ := k3 _ (List.mem_singleton.2 rfl)
  simp only at k4 k5
  have hsplit : QS le n c0 c2 ([(lo, R - 1), (R + 1, hi)] ++ L) := by
    refine hQ.replace (c' := c2) ⟨l2, p2.trans hQ.net.perm⟩
      (k1 _ (List.mem_singleton.2 rfl)) (fun x h0 hx hno => k2 x h0 hx ?_) _ ?_ ?_ ?_ ?_
    · intro r hr
      rw [List.mem_singleton.1 hr]
      exact hno
    · intro j hj
      simp only [List.mem_cons, List.not_mem_nil, or_false] at hj
      rcases hj with rfl | rfl <;> dsimp only <;> omega
    · intro j hj x hx
      simp only [List.mem_cons, List.not_mem_nil, or_false] at hj
      rcases hj with rfl | rfl <;> obtain ⟨x1, x2⟩ := hx <;> simp only at x1 x2 <;>
        exact ⟨by show lo ≤ x; omega, by show x ≤ hi; omega⟩
    · simp only [List.pairwise_cons, List.mem_singleton, forall_eq, List.not_mem_nil,
        IsEmpty.forall_iff, implies_true, List.Pairwise.nil, and_true]
      rintro x ⟨x1, x2⟩ ⟨x3, x4⟩
      simp only at x1 x2 x3 x4
      omega
    · intro p q hp hpq hq
      simp only at hp hq
      rcases lt_trichotomy p R with h | h | h
      · rcases lt_trichotomy q R with h' | h' | h'
        · exact Or.inl ⟨(lo, R - 1), by simp, hp, by show q ≤ R - 1; omega⟩
        · right; rw [h']; exact k4 p hp h
        · exact Or.inr (hc.trans _ _ _ (k4 p hp h) (k5 q h' hq))
      · right; rw [h]; exact k5 q (by omega) hq
      · exact Or.inl ⟨(R + 1, hi), by simp, by show R + 1 ≤ p; omega, hq⟩
  show ∃ c' more gone, (if cfg.kLo - 1 < R ∧ R < cfg.kHi - 1 then _ else _) = _ ∧ _
  split
  · refine ⟨c2, [(lo, R - 1), (R + 1, hi)], [], rfl, by simpa using hsplit, ?_, by simp⟩
    simp only [work, ivLen, List.map_cons, List.map_nil, List.sum_cons, List.sum_nil]
    omega
  · rename_i hcase
    by_cases hH : R ≥ cfg.kHi - 1 <;> by_cases hL : R ≤ cfg.kLo - 1
    · refine ⟨c2, [(R + 1, R - 1)], [(lo, R - 1), (R + 1, hi)], by rw [if_pos hH, if_pos hL], ?_,
        ?_, ?_⟩
      · simpa using hsplit.add_empty (iv := (R + 1, R - 1)) (by dsimp only; omega)
          (by dsimp only; omega)
      · simp only [work, ivLen, List.map_cons, List.map_nil, List.sum_cons, List.sum_nil]
        omega
      · intro iv hiv k a1 a2 ⟨x1, x2⟩
        simp only [List.mem_cons, List.not_mem_nil, or_false] at hiv
        rcases hiv with rfl | rfl <;> simp only at x1 x2 <;> omega
    · refine ⟨c2, [(lo, R - 1)], [(R + 1, hi)], by rw [if_pos hH, if_neg hL], by simpa using hsplit,
        ?_, ?_⟩
      · simp only [work, ivLen, List.map_cons, List.map_nil, List.sum_cons, List.sum_nil]
        omega
      · intro iv hiv k a1 a2 ⟨x1, x2⟩
        simp only [List.mem_cons, List.not_mem_nil, or_false] at hiv
        subst hiv
        simp only at x1 x2
        omega
    · refine ⟨c2, [(R + 1, hi)], [(lo, R - 1)], by rw [if_neg hH, if_pos hL], ?_, ?_, ?_⟩
      · exact hsplit.perm (List.Perm.swap _ _ _)
      · simp only [work, ivLen, List.map_cons, List.map_nil, List.sum_cons, List.sum_nil]
        omega
      · intro iv hiv k a1 a2 ⟨x1, x2⟩
        simp only [List.mem_cons, List.not_mem_nil, or_false] at hiv
        subst hiv
        simp only at x1 x2
        omega
    · exfalso
      omega

/-- **`QuickSelectTopk`**'s loop ends, and every position from `k_lo - 1` to `k_hi - 1` holds the
row that belongs there. -/
theorem selectLoop_ok {n : ℕ} {cmp : Row m w → Row m w → Bool} {D : Row m w → Prop}
    {le : Row m w → Row m w → Prop} (hc : Decides cmp D le) {c0 : Cols m w}
    (hD : ∀ i < n, D (rowAt c0 i)) (cfg : TopKConfig) : ∀ (f : ℕ) (c : Cols m w)
    (ivs gone : List (ℤ × ℤ)), QS le n c0 c (ivs ++ gone) →
    (∀ iv ∈ gone, ∀ k, cfg.kLo - 1 ≤ k → k ≤ cfg.kHi - 1 → ¬ InI iv k) → work ivs < f →
    ∃ c', selectLoop cmp cfg f c ivs = some c' ∧ NetState n c0 c' ∧
      ∀ k, cfg.kLo - 1 ≤ k → k ≤ cfg.kHi - 1 → 0 ≤ k → k < (n : ℤ) →
        (∀ p, 0 ≤ p → p < k → le (rz c' p) (rz c' k)) ∧
        (∀ q, k < q → q < (n : ℤ) → le (rz c' k) (rz c' q)) := by
  intro f
  induction f with
  | zero => intro c ivs gone _ _ h; omega
  | succ f ih =>
    intro c ivs gone hQ hgone hf
    rw [selectLoop]
    cases hl : ivs.getLast? with
    | none =>
      have : ivs = [] := by simpa using hl
      subst this
      refine ⟨c, rfl, hQ.net, fun k a1 a2 a3 a4 => ⟨fun p h0 hpk => ?_, fun q hkq hq => ?_⟩⟩
      · rcases hQ.sep p k h0 hpk a4 with ⟨iv, hiv, h1, h2⟩ | h
        · exact absurd ⟨by omega, h2⟩ (hgone iv (by simpa using hiv) k a1 a2)
        · exact h
      · rcases hQ.sep k q a3 hkq hq with ⟨iv, hiv, h1, h2⟩ | h
        · exact absurd ⟨h1, by omega⟩ (hgone iv (by simpa using hiv) k a1 a2)
        · exact h
    | some iv =>
      obtain ⟨lo, hi⟩ := iv
      have hsp : ivs = ivs.dropLast ++ [(lo, hi)] := by
        have hne : ivs ≠ [] := by rintro rfl; simp at hl
        have := List.dropLast_append_getLast hne
        rw [List.getLast?_eq_some_getLast hne] at hl
        rw [← Option.some.inj hl]
        exact this.symm
      have hw : work ivs = work ivs.dropLast + work [(lo, hi)] := by
        rw [← work_append, ← hsp]
      have hQ' : QS le n c0 c ((lo, hi) :: (ivs.dropLast ++ gone)) := by
        refine hQ.perm ?_
        rw [hsp]
        simp only [List.dropLast_concat, List.append_assoc, List.singleton_append]
        exact List.perm_middle.symm
      dsimp only
      split
      · rename_i hsm
        obtain ⟨c', h1, h2⟩ := handleSmall_ok hc hD hsm hQ'
        rw [h1]
        refine ih c' ivs.dropLast gone h2 hgone ?_
        have : 0 < work [(lo, hi)] := by simp [work]
        omega
      · rename_i hbig
        obtain ⟨c', more, g', h1, h2, h3, h4⟩ := twoWay_ok hc hD cfg hbig hQ'
        rw [h1]
        refine ih c' (ivs.dropLast ++ more) (g' ++ gone) (h2.perm ?_) ?_ ?_
        · rw [List.append_assoc, List.append_assoc, ← List.append_assoc more g']
          rw [← List.append_assoc, ← List.append_assoc, ← List.append_assoc, ← List.append_assoc]
          refine List.Perm.append_right gone ?_
          rw [List.append_assoc]
          exact List.perm_append_comm
        · intro iv hiv
          rcases List.mem_append.1 hiv with h | h
          · exact h4 iv h
          · exact hgone iv h
        · rw [work_append]; omega

/-! ### permutations of the rows as lists of positions -/

theorem perm_map_exists {α β : Type*} (f : α → β) {l1 l2 : List β} (h : l1.Perm l2) :
    ∀ l : List α, l2 = l.map f → ∃ l' : List α, l'.Perm l ∧ l1 = l'.map f := by
  induction h with
  | nil => intro l h; exact ⟨[], by simp at h; simp [h], rfl⟩
  | cons x _ ih =>
    intro l h
    cases l with
    | nil => simp at h
    | cons a l =>
      simp only [List.map_cons, List.cons.injEq] at h
      obtain ⟨l', h1, h2⟩ := ih l h.2
      exact ⟨a :: l', h1.cons a, by rw [h.1, h2]; rfl⟩
  | swap x y l0 =>
    intro l h
    cases l with
    | nil => simp at h
    | cons a l =>
      cases l with
      | nil => simp at h
      | cons b l =>
        simp only [List.map_cons, List.cons.injEq] at h
        exact ⟨b :: a :: l, List.Perm.swap a b l, by rw [h.1, h.2.1, h.2.2]; rfl⟩
  | trans _ _ ih1 ih2 =>
    intro l h
    obtain ⟨l2, h1, h2⟩ := ih2 l h
    obtain ⟨l1, h3, h4⟩ := ih1 l2 h2
    exact ⟨l1, h3.trans h1, h4⟩

/-- an arrangement of all positions in which the places `kLo - 1` and `kHi - 1` are right -/
theorem topkSel_of_order {α : Type*} {n : ℕ} {before : α → α → Prop}
    (htr : ∀ a b c, ¬ before b a → ¬ before c b → ¬ before c a) (hirr : ∀ a, ¬ before a a)
    (x : Fin n → α) {kLo kHi : ℕ}
    (h1 : 0 < kLo) (h2 : kLo ≤ kHi) (h3 : kHi ≤ n) (l : List (Fin n))
    (hp : l.Perm (List.finRange n)) (hk : ∀ k, k = kLo - 1 ∨ k = kHi - 1 →
      ∀ (i : ℕ) (hk : k < l.length) (hi : i < l.length),
        (i < k → ¬ before (x l[k]) (x l[i])) ∧ (k < i → ¬ before (x l[i]) (x l[k]))) :
    Spec.TopkSel before x kLo kHi (l.take kHi) := by
  have hlen : l.length = n := by rw [hp.length_eq, List.length_finRange]
  have hnd : l.Nodup := hp.nodup_iff.2 (List.nodup_finRange n)
  have hmem : ∀ j, j ∈ l := fun j => hp.symm.subset (List.mem_finRange j)
  -- elements up to place `k - 1` against the ones from `k` on, for either `k`
  have core : ∀ k, k = kLo ∨ k = kHi → (∀ i ∈ l.take k, ∀ j, j ∉ l.take k → ¬ before (x j) (x i)) ∧
      (∀ e, l[k - 1]? = some e → ∀ i ∈ l.take k, ¬ before (x e) (x i)) := by
    intro k hkk
    have hk' := hk (k - 1) (by omega)
    have hkn : k ≤ n := by omega
    have hle : ∀ a (ha : a < l.length), a < k →
        ¬ before (x (l[k - 1]'(by omega))) (x l[a]) := by
      intro a ha hak
      by_cases e : a = k - 1
      · subst e
        exact hirr _
      · exact (hk' a (by omega) ha).1 (by omega)
    refine ⟨fun i hi j hj => ?_, fun e he i hi => ?_⟩
    · obtain ⟨a, ha, rfl⟩ := List.getElem_of_mem hi
      obtain ⟨b, hb, rfl⟩ := List.getElem_of_mem (hmem j)
      rw [List.length_take] at ha
      rw [List.getElem_take]
      have hbk : k ≤ b := by
        by_contra hlt
        exact hj (by
          rw [List.mem_take_iff_getElem]
          exact ⟨b, by omega, rfl⟩)
      exact htr _ _ _ (hle a (by omega) (by omega))
        ((hk' b (by omega) hb).2 (by omega))
    · obtain ⟨a, ha, rfl⟩ := List.getElem_of_mem hi
      rw [List.length_take] at ha
      rw [List.getElem_take]
      rw [List.getElem?_eq_getElem (by omega)] at he
      rw [← Option.some.inj he]
      exact hle a (by omega) (by omega)
  refine ⟨by rw [List.length_take]; omega, hnd.sublist (List.take_sublist _ _), (core kHi (Or.inr rfl)).1,
    ?_, fun e he i hi => ?_, fun e he i hi => ?_⟩
  · rw [List.take_take, min_eq_left h2]
    exact (core kLo (Or.inl rfl)).1
  · rw [List.getElem?_take_of_lt (by omega)] at he
    exact (core kHi (Or.inr rfl)).2 e he i hi
  · rw [List.getElem?_take_of_lt (by omega)] at he
    rw [List.take_take, min_eq_left h2] at hi
    exact (core kLo (Or.inl rfl)).2 e he i hi

end Spu.Lemmas.QuickSort

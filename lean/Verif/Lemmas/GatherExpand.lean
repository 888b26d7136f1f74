import Verif.Model.GatherExpand
import Verif.Props.Gather
import Verif.Props.Convolution

set_option autoImplicit false

/-! # Lemmas about the rewriting of gathers -/

namespace Spu.Lemmas.T
open Spu.Spec Spu.Model Spu.Lemmas Spu.Props Spu.Model.Gat Spu.Model.RW Spu.Model.Dyn

variable {α : Type}

/-! ## The vector dimension last -/

theorem rest_one (l : List ℕ) : ∀ p, p < l.length →
    (((List.range l.length).filter fun i => decide (i ≠ p)).map fun i => l.getD i 0) = l.eraseIdx p := by
  induction l with
  | nil => intro p hp; simp at hp
  | cons x xs ih =>
    intro p hp
    rw [List.length_cons, List.range_succ_eq_map, List.filter_cons]
    cases p with
    | zero =>
      simp only [ne_eq, not_true, decide_false, Bool.false_eq_true, if_false, List.eraseIdx_cons_zero]
      rw [List.filter_map, List.map_map]
      have : ((List.range xs.length).filter ((fun i => decide ¬i = 0) ∘ Nat.succ)) = List.range xs.length :=
        List.filter_eq_self.2 fun a _ => by simp
      rw [this]
      have h := map_range_getD xs
      simpa [Function.comp_def] using h
    | succ p =>
      simp only [ne_eq, show ¬ (0 = p + 1) by omega, not_false_eq_true, decide_true, if_true, List.eraseIdx_cons_succ, List.map_cons]
      rw [List.filter_map, List.map_map, ← ih p (by simpa using hp)]
      congr 1
      have : ((fun i => decide ¬i = p + 1) ∘ Nat.succ) = fun i => decide (i ≠ p) := by
        funext i; simp
      rw [this]
      apply List.map_congr_left
      intro a _
      simp

theorem lastPerm_perm {n p : ℕ} (hp : p < n) : (lastPerm n p).Perm (List.range n) := by
  unfold lastPerm
  rw [List.perm_ext_iff_of_nodup]
  · intro a
    simp only [List.mem_append, List.mem_filter, List.mem_range, decide_eq_true_eq, List.mem_singleton]
    constructor
    · rintro (⟨h, _⟩ | rfl)
      · exact h
      · exact hp
    · intro h
      by_cases e : a = p
      · exact .inr e
      · exact .inl ⟨h, e⟩
  · refine List.nodup_append.2 ⟨List.nodup_range.filter _, by simp, ?_⟩
    intro a ha b hb
    simp only [List.mem_filter, decide_eq_true_eq, List.mem_singleton] at ha hb
    rw [hb]
    exact ha.2
  · exact List.nodup_range

theorem permuted_lastPerm {l : List ℕ} {p : ℕ} (hp : p < l.length) :
    permuted (lastPerm l.length p) l = l.eraseIdx p ++ [l.getD p 0] := by
  unfold permuted lastPerm
  rw [List.map_append, rest_one l p hp]
  rfl

theorem placed_lastPerm {b : List ℕ} {n p k : ℕ} (hp : p ≤ b.length) (hn : n = b.length + 1) :
    placed (lastPerm n p) (b ++ [k]) = b.insertIdx p k := by
  have hl : (b.insertIdx p k).length = n := by rw [List.length_insertIdx_of_le_length hp, hn]
  have hpn : p < (b.insertIdx p k).length := by omega
  obtain ⟨h1, h2, h3⟩ := perm_facts (lastPerm_perm (n := n) (p := p) (by omega))
  have e : permuted (lastPerm n p) (b.insertIdx p k) = b ++ [k] := by
    have := permuted_lastPerm hpn
    rw [hl] at this
    rw [this, List.eraseIdx_insertIdx_self, List.getD_eq_getElem?_getD, List.getElem?_eq_getElem hpn, List.getElem_insertIdx_self]
    rfl
  rw [← e, placed_eq]
  exact unperm_permuted (fun a ha => (h3 a).2 (by omega)) (by omega)

/-! ## The places of the dimensions of the result -/

theorem finalPerm_eq (off : List ℕ) : ∀ (is : List ℕ) (b f : ℕ), is.Nodup →
    finalPerm off is b f = is.map fun i => if i ∈ off then f + (is.filter fun i => decide (i ∈ off)).idxOf i
      else b + (is.filter fun i => decide (i ∉ off)).idxOf i := by
  intro is
  induction is with
  | nil => intros; rfl
  | cons i is ih =>
    intro b f hn
    have hni := (List.nodup_cons.1 hn).1
    by_cases hi : i ∈ off
    · simp only [finalPerm, hi, if_true, List.map_cons, List.filter_cons, decide_true, not_true, decide_false, Bool.false_eq_true,
        if_false, List.idxOf_cons_self, Nat.add_zero]
      congr 1
      rw [ih _ _ (List.nodup_cons.1 hn).2]
      apply List.map_congr_left
      intro a ha
      have hne : i ≠ a := fun h => hni (h ▸ ha)
      rw [List.idxOf_cons_ne _ hne]
      split_ifs <;> omega
    · simp only [finalPerm, hi, if_false, List.map_cons, List.filter_cons, decide_true, not_false_eq_true, decide_false,
        Bool.false_eq_true, if_true, List.idxOf_cons_self, Nat.add_zero]
      congr 1
      rw [ih _ _ (List.nodup_cons.1 hn).2]
      apply List.map_congr_left
      intro a ha
      have hne : i ≠ a := fun h => hni (h ▸ ha)
      rw [List.idxOf_cons_ne _ hne]
      split_ifs <;> omega

theorem finalPerm_inverse {off : List ℕ} {n : ℕ} (hs : off.Pairwise (· < ·)) (hl : ∀ a ∈ off, a < n) :
    (keptAxes off n ++ off).Perm (List.range n) ∧
      finalPerm off (List.range n) 0 (n - off.length) = Con.inversePerm (keptAxes off n ++ off) := by
  have hr : redAxes off n = off := filter_mem_range hs hl
  obtain ⟨a1, a2, a3⟩ := axes_perm off n
  rw [hr] at a1 a2 a3
  have hp : (keptAxes off n ++ off).Perm (List.range n) := by
    rw [List.perm_ext_iff_of_nodup a2 List.nodup_range]
    intro a; rw [a3]; simp
  refine ⟨hp, ?_⟩
  have hk : (keptAxes off n).length = n - off.length := by rw [List.length_append] at a1; omega
  rw [finalPerm_eq off _ _ _ List.nodup_range, Con.inversePerm, a1]
  apply List.map_congr_left
  intro i hi
  have hi := List.mem_range.1 hi
  rw [filter_mem_range hs hl, List.idxOf_append]
  by_cases h : i ∈ off
  · have hnk : i ∉ keptAxes off n := by simp [keptAxes, h]
    rw [if_pos h, if_neg hnk, hk]; omega
  · have hnk : i ∈ keptAxes off n := by simp [keptAxes, h, hi]
    rw [if_neg h, if_pos hnk, Nat.zero_add]; rfl

/-- the last transposition -/
theorem final_spec {off out : List ℕ} (t : Ten α) (hs : off.Pairwise (· < ·)) (hl : ∀ a ∈ off, a < out.length)
    (ht : t.shape = rest off out ++ permuted off out) :
    ∃ r, t.transpose (finalPerm off (List.range out.length) 0 (out.length - off.length)) = some r ∧ r.shape = out ∧
      ∀ o, InB o out → r.get o = t.get (rest off o ++ permuted off o) := by
  obtain ⟨hp, he⟩ := finalPerm_inverse hs hl
  obtain ⟨k1, k2, k3⟩ := inversePerm_facts hp
  have hsh : t.shape = permuted (keptAxes off out.length ++ off) out := by
    rw [ht, rest_eq]; simp [permuted]
  have hlen : t.shape.length = out.length := by
    rw [hsh]; simp only [permuted, List.length_map]; rw [hp.length_eq, List.length_range]
  obtain ⟨r, r1, r2, r3⟩ := transpose_spec (perm := Con.inversePerm (keptAxes off out.length ++ off)) t (by rw [k1, hlen]) k2
    (fun a ha => by rw [hlen]; exact (k3 a).1 ha)
  obtain ⟨h1, h2, h3⟩ := perm_facts hp
  refine ⟨r, by rw [he, r1], ?_, fun o ho => ?_⟩
  · rw [r2, hsh, permuted_inversePerm]
    exact unperm_permuted (fun a ha => (h3 a).2 (by omega)) (by omega)
  · have hol := InB.length ho
    rw [r3, placed_inversePerm hp hol, rest_eq, hol]
    congr 1
    simp [permuted]

/-! ## Dropping dimensions of extent 1 -/

theorem rest_cons (dims : List ℕ) (x : ℕ) (xs : List ℕ) :
    rest dims (x :: xs) = (if 0 ∈ dims then [] else [x]) ++ rest ((dims.filter (0 < ·)).map Nat.pred) xs := by
  have hmem : ∀ a, a ∈ ((dims.filter (0 < ·)).map Nat.pred) ↔ a + 1 ∈ dims := by
    intro a
    simp only [List.mem_map, List.mem_filter, decide_eq_true_eq, Nat.pred_eq_sub_one]
    constructor
    · rintro ⟨b, ⟨hb, h0⟩, rfl⟩
      rwa [Nat.sub_add_cancel h0]
    · intro h; exact ⟨a + 1, ⟨h, by omega⟩, by omega⟩
  unfold rest
  rw [List.length_cons, List.range_succ_eq_map, List.filter_cons, List.filter_map]
  have : ((fun a => decide (a ∉ dims)) ∘ Nat.succ) = fun a => decide (a ∉ ((dims.filter (0 < ·)).map Nat.pred)) := by
    funext a; simp only [Function.comp_apply, hmem]
  rw [this]
  by_cases h : 0 ∈ dims
  · simp only [h, not_true, decide_false, Bool.false_eq_true, if_false, if_true, List.nil_append, List.map_map]
    rfl
  · simp only [h, not_false_eq_true, decide_true, if_true, if_false, List.map_cons, List.map_map, List.singleton_append]
    rfl

theorem pos_rest (sh : List ℕ) : ∀ (dims o : List ℕ), InB o sh → (∀ a ∈ dims, a < sh.length → sh.getD a 0 = 1) →
    pos o sh = pos (rest dims o) (rest dims sh) ∧ size sh = size (rest dims sh) := by
  induction sh with
  | nil => intro dims o ho _; cases ho; simp [rest]
  | cons d ds ih =>
    intro dims o ho h1
    cases ho with
    | @cons i _ is _ hi his =>
      have hrec := ih ((dims.filter (0 < ·)).map Nat.pred) is his (by
        intro a ha hlt
        simp only [List.mem_map, List.mem_filter, decide_eq_true_eq, Nat.pred_eq_sub_one] at ha
        obtain ⟨b, ⟨hb, h0⟩, rfl⟩ := ha
        have := h1 b hb (by simp; omega)
        obtain ⟨b, rfl⟩ : ∃ c, b = c + 1 := ⟨b - 1, by omega⟩
        simpa using this)
      rw [rest_cons, rest_cons]
      by_cases h : 0 ∈ dims
      · have hd : d = 1 := by simpa using h1 0 h (by simp)
        simp only [h, if_true, List.nil_append]
        rw [← hrec.1, ← hrec.2]
        have : i = 0 := by omega
        subst this
        simp [pos, size, hd]
      · simp only [h, if_false, List.singleton_append, pos, size]
        rw [← hrec.1, ← hrec.2]
        exact ⟨rfl, rfl⟩

theorem rest_InB' {dims o sh : List ℕ} (ho : InB o sh) : InB (rest dims o) (rest dims sh) := by
  rw [rest_eq, rest_eq, InB.length ho]
  exact InB_permuted ho fun a ha => List.mem_range.1 (List.mem_filter.1 ha).1

theorem size_rest (sh : List ℕ) : ∀ (dims : List ℕ), (∀ a ∈ dims, a < sh.length → sh.getD a 0 = 1) →
    size sh = size (rest dims sh) := by
  induction sh with
  | nil => intro dims _; simp [rest]
  | cons d ds ih =>
    intro dims h1
    have hrec := ih ((dims.filter (0 < ·)).map Nat.pred) (by
        intro a ha hlt
        simp only [List.mem_map, List.mem_filter, decide_eq_true_eq, Nat.pred_eq_sub_one] at ha
        obtain ⟨b, ⟨hb, h0⟩, rfl⟩ := ha
        have := h1 b hb (by simp; omega)
        obtain ⟨b, rfl⟩ : ∃ c, b = c + 1 := ⟨b - 1, by omega⟩
        simpa using this)
    rw [rest_cons]
    by_cases h : 0 ∈ dims
    · have hd : d = 1 := by simpa using h1 0 h (by simp)
      simp only [h, if_true, List.nil_append, size]
      rw [← hrec, hd, Nat.one_mul]
    · simp only [h, if_false, List.singleton_append, size]
      rw [← hrec]

theorem elide_spec (t : Ten α) {dims : List ℕ} (h1 : ∀ a ∈ dims, a < t.shape.length → t.shape.getD a 0 = 1) :
    ∃ r, elide t dims = some r ∧ r.shape = rest dims t.shape ∧ ∀ o, InB o t.shape → r.get (rest dims o) = t.get o := by
  obtain ⟨r, hr⟩ := reshape_isSome (t := t) (sh := rest dims t.shape) (size_rest _ _ h1).symm
  obtain ⟨r1, r2⟩ := reshape_spec hr
  exact ⟨r, hr, r1, fun o ho => r2 _ _ (rest_InB' ho) ho (pos_rest _ _ _ ho h1).1.symm⟩

/-! ## The loop -/

theorem runLoop_spec {S : Type} (ty : IntTy) (N : ℕ) (body : ℤ → S → Option S) (P : ℕ → S → Prop)
    (hw : ∀ k : ℕ, k ≤ N → ty.wrap k = k) (hb : ∀ k s, k < N → P k s → ∃ s', body k s = some s' ∧ P (k + 1) s') :
    ∀ (m fuel c : ℕ) (s : S), c + m = N → m < fuel → P c s → ∃ s', runLoop ty N body fuel c s = some s' ∧ P N s' := by
  intro m
  induction m with
  | zero =>
    intro fuel c s hc hf hP
    obtain ⟨f, rfl⟩ : ∃ f, fuel = f + 1 := ⟨fuel - 1, by omega⟩
    refine ⟨s, by rw [runLoop, if_neg (by omega)], by rwa [show N = c by omega]⟩
  | succ m ih =>
    intro fuel c s hc hf hP
    obtain ⟨f, rfl⟩ : ∃ f, fuel = f + 1 := ⟨fuel - 1, by omega⟩
    obtain ⟨s1, h1, h2⟩ := hb c s (by omega) hP
    obtain ⟨s2, h3, h4⟩ := ih f (c + 1) s1 (by omega) (by omega) h2
    refine ⟨s2, ?_, h4⟩
    rw [runLoop, if_pos (by omega), h1, Option.bind_some]
    have := hw (c + 1) (by omega)
    push_cast at this h3
    rw [this, h3]

end Spu.Lemmas.T

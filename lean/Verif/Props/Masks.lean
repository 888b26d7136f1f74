import Verif.Props.Dealer
import Verif.Props.Semi2k
import Mathlib.Data.List.Pairwise

set_option autoImplicit false

/-!
# C22 and C42: what opened values reveal, and whether masks are ever re-used

C22 is perfect hiding for the values opened in multiplication and for input sharing.
C42 is the freshness of the masks: two first-time draws never overlap on the keystream.  It is false
for matrix triples whose operand has caching enabled (see `c42_dot_init_leaks`).
-/

set_option linter.unusedSectionVars false

namespace Spu.Props
open Spu.Model Spu.Model.Dealer
open Spu.Model.Semi2k (openMasked)
open Spu.Spec Spu.Lemmas

variable {n w : ℕ} [NeZero n] {Seed : Type}

/-! ## C22 -/

/-- C22: Beaver opening hides. Fix the corrupted parties' shares and masks (everything except party
`h`'s). For any two inputs that agree on the corrupted shares there is a bijection of the honest
party's masks under which everything the others see during the opening is identical. With
uniform masks the two transcripts are therefore identically distributed. -/
theorem c22_mul_open_hides {R : Type*} [CommRing R] (h : Fin n) (x x' y y' a b : Fin n → R)
    (hx : ∀ i, i ≠ h → x i = x' i) (hy : ∀ i, i ≠ h → y i = y' i) :
    ∃ e : R × R ≃ R × R, ∀ m : R × R, ∀ i,
      openMasked none x (Function.update a h m.1) i
        = openMasked none x' (Function.update a h (e m).1) i ∧
      openMasked none y (Function.update b h m.2) i
        = openMasked none y' (Function.update b h (e m).2) i := by
  have key : ∀ (x x' a : Fin n → R), (∀ i, i ≠ h → x i = x' i) → ∀ (m : R) (i : Fin n),
      openMasked none x (Function.update a h m) i
        = openMasked none x' (Function.update a h (m + (x' h - x h))) i := by
    intro x x' a hx m i
    simp only [openMasked, allReduce_add]
    unfold total
    apply Finset.sum_congr rfl
    intro j _
    by_cases hj : j = h
    · subst hj; simp only [Function.update_self]; ring
    · simp [Function.update_of_ne hj, hx j hj]
  refine ⟨Equiv.prodCongr (Equiv.addRight (x' h - x h)) (Equiv.addRight (y' h - y h)), ?_⟩
  intro m i
  exact ⟨key x x' a hx m.1 i, key y y' b hy m.2 i⟩

/-- C22: the opened value determines the honest mask uniquely and every value is reachable: for fixed
secrets the map from the honest mask to the opened value is a bijection. -/
theorem c22_open_bijective {R : Type*} [CommRing R] (h : Fin n) (x a : Fin n → R) (i : Fin n) :
    Function.Bijective (fun m => openMasked none x (Function.update a h m) i) := by
  have e : ∀ m, openMasked none x (Function.update a h m) i
      = (total x - (total a - a h)) - m := by
    intro m
    simp only [openMasked, allReduce_add, total_sub]
    have : total (Function.update a h m) = (total a - a h) + m := by
      unfold total
      rw [Finset.sum_update_of_mem (Finset.mem_univ h), add_comm m]
      congr 1
      rw [← Finset.sum_erase_eq_sub (Finset.mem_univ h)]
      apply Finset.sum_congr _ (fun _ _ => rfl)
      ext j; simp
    rw [this]; ring
  simp only [e]
  constructor
  · intro m m' hm
    have := sub_right_inj.1 hm
    exact this
  · intro v; exact ⟨(total x - (total a - a h)) - v, by ring⟩

/-- C22: input sharing hides. The shares of all parties but one carry no information about the input:
for any two inputs there is a bijection of the randomness giving the same `n-1` shares. -/
theorem c22_input_shares_hide {R : Type*} [CommRing R] (h : Fin n) (raw raw' : R) :
    ∃ e : (Fin n → R) ≃ (Fin n → R), ∀ rnd : Fin n → R, ∀ i, i ≠ h →
      Semi2k.additiveSplits raw rnd i = Semi2k.additiveSplits raw' (e rnd) i := by
  by_cases hh : h = 0
  · refine ⟨Equiv.refl _, fun rnd i hi => ?_⟩
    have : i ≠ 0 := fun h0 => hi (h0.trans hh.symm)
    simp [Semi2k.additiveSplits, this]
  · refine ⟨Equiv.addRight (Pi.single h (raw' - raw)), fun rnd i hi => ?_⟩
    unfold Semi2k.additiveSplits
    have hf : ∀ (l : List (Fin n)) (z : R) (rnd : Fin n → R),
        l.foldl (fun acc j => if j = 0 then acc else acc - rnd j) z
          = z - (l.map (fun j => if j = 0 then 0 else rnd j)).sum := by
      intro l
      induction l with
      | nil => intro z _; simp
      | cons a l ih =>
        intro z rnd
        simp only [List.foldl_cons, List.map_cons, List.sum_cons]
        rw [ih]
        split <;> ring
    by_cases h0 : i = 0
    · rw [if_pos h0, if_pos h0]
      rw [hf, hf, sum_finRange, sum_finRange]
      have : ∀ j : Fin n, (if j = 0 then (0 : R) else
          ((Equiv.addRight (Pi.single h (raw' - raw))) rnd) j)
          = (if j = 0 then 0 else rnd j) + (if j = h then raw' - raw else 0) := by
        intro j
        simp only [Equiv.coe_addRight, Pi.add_apply]
        by_cases hj : j = 0
        · subst hj; simp [Ne.symm hh]
        · by_cases hjh : j = h
          · subst hjh; simp [hj]
          · simp [hj, hjh]
      simp only [this, Finset.sum_add_distrib, Finset.sum_ite_eq', Finset.mem_univ, if_true]
      ring
    · simp [h0, Pi.single_apply, hi]

/-! ## C42 -/

/-- `(c, s)` and `(c', s')` occupy disjoint keystream positions -/
def DisjointDraws (K : Ks w Seed) (e f : ℕ × ℕ) : Prop :=
  ∀ i j, i < e.2 → j < f.2 → e.1 * K.epb + i ≠ f.1 * K.epb + j

/-- a request with no matrix operand in its first (`Init`) use -/
def NoDotInit : Call n Seed → Prop
  | .dot _ _ _ xd yd => (∀ x, xd = some x → x.status ≠ .init) ∧
      (∀ y, yd = some y → y.status ≠ .init)
  | _ => True

/-- every logged draw lies below the counter, and each starts after all earlier ones end -/
def LogOk (K : Ks w Seed) (d : Dealer n Seed) (i : Fin n) : Prop :=
  (∀ e ∈ d.log i, e.1 + blocks K e.2 ≤ d.ctr i) ∧
  (d.log i).Pairwise (fun e f => e.1 + blocks K e.2 ≤ f.1)

theorem logOk_create (K : Ks w Seed) (adj i : Fin n) (d : Dealer n Seed) (size : ℕ)
    (h : LogOk K d i) : LogOk K (create K adj d size).2.2 i := by
  obtain ⟨h1, h2⟩ := h
  refine ⟨?_, ?_⟩
  · intro e he
    simp only [create, List.mem_append, List.mem_singleton] at he ⊢
    rcases he with he | rfl
    · exact Nat.le_add_right_of_le (h1 e he)
    · exact le_refl _
  · simp only [create]
    rw [List.pairwise_append]
    refine ⟨h2, List.pairwise_singleton _ _, ?_⟩
    intro e he f hf
    rw [List.mem_singleton] at hf
    subst hf
    exact h1 e he

theorem logOk_drawOrReplay (K : Ks w Seed) (adj i : Fin n) (d : Dealer n Seed) (size : ℕ)
    (ds : Option (Desc n Seed)) (h : LogOk K d i) :
    LogOk K (drawOrReplay K adj d size ds).2.2 i := by
  unfold drawOrReplay
  split
  · exact logOk_create K adj i d size h
  · split
    · exact h
    · exact logOk_create K adj i d size h

theorem logOk_dot (K : Ks w Seed) (adj i : Fin n) (d : Dealer n Seed) (size : ℕ)
    (ds : Option (Desc n Seed)) (hds : ∀ x, ds = some x → x.status ≠ .init) (h : LogOk K d i) :
    LogOk K (drawOrReplayDot K adj d size ds).2.2 i := by
  unfold drawOrReplayDot
  split
  · exact logOk_create K adj i d size h
  · next y => simp only [if_neg (hds y rfl)]; exact h

theorem fillDesc_status (d : Dealer n Seed) (ds : Option (Desc n Seed))
    (h : ∀ x, ds = some x → x.status ≠ .init) : fillDesc d ds = ds := by
  cases ds with
  | none => rfl
  | some x => simp [fillDesc, h x rfl]

/-- C42 (partial): in any history in which no matrix triple is requested for an operand in its first
cached use, no two first-time draws of any party ever overlap on its keystream.
`gp` never moves a counter backwards.
Missing: matrix triples with an `Init` descriptor, for which the claim is false. -/
theorem c42_masks_fresh_partial (K : Ks w Seed) (hepb : 0 < K.epb) (adj : Fin n)
    (gp : Seed → ℕ → ℕ → (ℕ → ℕ) × ℕ) (hgp : ∀ s c z, c ≤ (gp s c z).2)
    (seed : Fin n → Seed) (calls : List (Call n Seed)) (hok : ∀ c ∈ calls, CallOk c)
    (hc : ∀ c ∈ calls, NoDotInit c) (i : Fin n) :
    ((run K adj gp seed calls).log i).Pairwise (DisjointDraws K) := by
  have key : ∀ (calls : List (Call n Seed)) (d : Dealer n Seed), (∀ c ∈ calls, NoDotInit c) →
      (∀ c ∈ calls, CallOk c) → DealerOk d → (LogOk K d i) →
      LogOk K (calls.foldl (next K adj gp) d) i := by
    intro calls
    induction calls with
    | nil => intro d _ _ _ h; exact h
    | cons c l ih =>
      intro d hc hok hd h
      have hd' : DealerOk (next K adj gp d c) := by
        have hcc := hok c List.mem_cons_self
        cases c with
        | mul size xd yd => exact (c21_mul K adj d size xd yd hd hcc.1 hcc.2).2.1
        | mulPriv size => exact (create_spec K adj _ size (create_spec K adj d size hd).2).2
        | square size xd => exact (c21_square K adj d size xd hd hcc).2.1
        | dot m nn k xd yd => exact (c21_dot K adj d m nn k xd yd hd hcc.1 hcc.2).2.1
        | and size => exact (c21_and K adj d size hd).2
        | trunc size bits => exact (c21_trunc K adj d size bits hd).2
        | truncPr size bits => exact (c21_truncPr K adj d size bits hd).2
        | randBit size rb => exact (c21_randBit K adj d size rb hd).2
        | eqz size => exact (c21_eqz K adj d size hd).2
        | permPair size pr => exact (c21_permPair K adj gp d size pr hd).2
      refine ih _ (fun x hx => hc x (List.mem_cons_of_mem _ hx))
        (fun x hx => hok x (List.mem_cons_of_mem _ hx)) hd' ?_
      have hcc := hc c List.mem_cons_self
      cases c with
      | mul size xd yd =>
        exact logOk_create K adj i _ size (logOk_drawOrReplay K adj i _ size _
          (logOk_drawOrReplay K adj i _ size _ h))
      | mulPriv size => exact logOk_create K adj i _ size (logOk_create K adj i _ size h)
      | square size xd =>
        exact logOk_create K adj i _ size (logOk_drawOrReplay K adj i _ size _ h)
      | dot m nn k xd yd =>
        refine logOk_create K adj i _ (m * nn) (logOk_dot K adj i _ (k * nn) _ ?_
          (logOk_dot K adj i _ (m * k) _ ?_ h))
        · rw [fillDesc_status _ _ hcc.2]; exact hcc.2
        · rw [fillDesc_status _ _ hcc.1]; exact hcc.1
      | and size =>
        exact logOk_create K adj i _ size (logOk_create K adj i _ size
          (logOk_create K adj i _ size h))
      | trunc size bits => exact logOk_create K adj i _ size (logOk_create K adj i _ size h)
      | truncPr size bits =>
        exact logOk_create K adj i _ size (logOk_create K adj i _ size
          (logOk_create K adj i _ size h))
      | randBit size rb => exact logOk_create K adj i _ size h
      | eqz size => exact logOk_create K adj i _ size (logOk_create K adj i _ size h)
      | permPair size pr =>
        have h2 := logOk_create K adj i _ size (logOk_create K adj i _ size h)
        have hd2 := (create_spec K adj _ size (create_spec K adj d size hd).2).2
        refine ⟨fun e he => le_trans (h2.1 e he) ?_, h2.2⟩
        simp only [next, permPair]
        rw [hd2.2 i pr]
        exact hgp _ _ _
  have hl := (key calls (start seed) hc hok ⟨rfl, fun _ _ => rfl⟩
    ⟨by simp [start], by simp [start]⟩).2
  refine List.Pairwise.imp ?_ hl
  intro e f hef a b ha hb heq
  have hbl : e.2 ≤ blocks K e.2 * K.epb := by
    unfold blocks
    have := Nat.div_add_mod (e.2 + K.epb - 1) K.epb
    have hm := Nat.mod_lt (e.2 + K.epb - 1) hepb
    rw [Nat.mul_comm] at this
    omega
  have := Nat.mul_le_mul_right K.epb hef
  rw [Nat.add_mul] at this
  omega

/-- C42 is false for matrix triples: with caching enabled on the first operand and at its first use,
the masks of the two operands are the same keystream, so their flat buffers coincide element by
element at every party, for every dealer state and every seeds. -/
theorem c42_dot_init_reuses_mask (K : Ks w Seed) (adj : Fin n) (d : Dealer n Seed) (m nn k : ℕ)
    (x : Desc n Seed) (hx : x.status = .init) (p : Fin n) (i j i' j' : ℕ)
    (hflat : i * k + j = i' * nn + j') :
    (dot K adj d m nn k (some x) none).1.1 p i j
      = (dot K adj d m nn k (some x) none).1.2.1 p i' j' := by
  simp only [dot, fillDesc, hx, if_true, drawOrReplayDot, create, replay, matOf]
  simp [asMat, draw, hflat]

/-- … hence what is opened in the cached matrix product discloses the difference of the two secret
operands: `(X - A) - (Y - B) = X - Y` at matching flat positions. -/
theorem c42_dot_init_leaks (K : Ks w Seed) (adj : Fin n) (d : Dealer n Seed) (m nn k : ℕ)
    (x : Desc n Seed) (hx : x.status = .init) (X Y : Fin n → Mat w) (i j i' j' : ℕ)
    (hflat : i * k + j = i' * nn + j') (q : Fin n) :
    openMasked none (fun p => X p i j)
        (fun p => (dot K adj d m nn k (some x) none).1.1 p i j) q
      - openMasked none (fun p => Y p i' j')
        (fun p => (dot K adj d m nn k (some x) none).1.2.1 p i' j') q
      = total (fun p => X p i j) - total (fun p => Y p i' j') := by
  simp only [openMasked, allReduce_add]
  rw [total_sub, total_sub]
  simp only [c42_dot_init_reuses_mask K adj d m nn k x hx _ i j i' j' hflat]
  ring

/-- … and the freshness claim itself fails after one such request. -/
theorem c42_not_fresh : ¬ ∀ (K : Ks 64 ℕ) (_ : 0 < K.epb) (calls : List (Call 2 ℕ))
    (_ : ∀ c ∈ calls, CallOk c),
    ((run K 0 (fun _ c _ => (id, c)) ![1, 2] calls).log 0).Pairwise (DisjointDraws K) := by
  intro H
  have := H ⟨fun _ _ => 0, 2⟩ (by norm_num)
    [.dot 2 2 2 (some ⟨.init, fun _ => 0, fun _ => 0, fun _ => 0⟩) none] (by
      intro c hc
      rw [List.mem_singleton] at hc
      subst hc
      exact ⟨fun x hx => by cases hx; exact Or.inl rfl, fun x hx => by cases hx⟩)
  have e : (run (⟨fun _ _ => 0, 2⟩ : Ks 64 ℕ) (0 : Fin 2) (fun _ c _ => (id, c)) ![1, 2]
      [.dot 2 2 2 (some ⟨.init, fun _ => 0, fun _ => 0, fun _ => 0⟩) none]).log 0
      = [(0, 4), (0, 4), (2, 4)] := by decide +kernel
  rw [e] at this
  have h1 := (List.pairwise_cons.1 this).1 (0, 4) (by simp)
  exact h1 0 0 (by norm_num) (by norm_num) rfl

-- hypotheses of the partial theorem are met by a mixed history with caching on element-wise products
example : ∀ c ∈ ([.mul 4 (some ⟨.init, fun _ => 0, fun _ => 0, fun _ => 0⟩) none, .and 3,
    .dot 2 2 2 none (some ⟨.replay, fun _ => 0, ![1, 2], ![1, 2]⟩), .truncPr 5 2] :
      List (Call 2 ℕ)), NoDotInit c ∧ CallOk c := by
  intro c hc
  simp only [List.mem_cons, List.not_mem_nil, or_false] at hc
  rcases hc with rfl | rfl | rfl | rfl
  · exact ⟨trivial, fun x hx => by cases hx; exact Or.inl rfl, fun x hx => by cases hx⟩
  · exact ⟨trivial, trivial⟩
  · exact ⟨⟨fun x hx => by (cases hx), fun x hx => by cases hx; simp⟩,
      fun x hx => by (cases hx), fun x hx => by cases hx; exact Or.inr ⟨rfl, fun _ _ => rfl⟩⟩
  · exact ⟨trivial, trivial⟩

end Spu.Props
